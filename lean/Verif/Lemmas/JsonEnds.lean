import Verif.Lemmas.Ends
import Verif.Lemmas.ProgTys
import Verif.Lemmas.JsonTotal
import Verif.Spec.JsonScan
/-! The JSON readers return. -/
namespace NS
namespace Ends
variable {B : Nat} {I : PSt → Prop} {P H : Prop} {s : PSt} {nx : PM Unit} (L : Lexer nx I)
include L

theorem expectTok' (hs : I s) {t : Tok} (ht : t ≠ .eof) (w) :
    Ends B I P H (fun _ => NS.expectTok nx t w) s (fun _ s' => s'.left < s.left ∧ s.tok = t ∧ nx s = .ok () s') := by
  refine get ?_
  by_cases h : s.tok = t
  · simp only [if_pos h]
    rcases L.run s hs with ⟨s', e, h1, h2⟩ | ⟨e, s', h1⟩
    · exact ⟨.ok () s', ⟨h1, h2.resolve_right fun h2 => ht (h.symm.trans h2.1), h, e⟩, fun _ _ => e⟩
    · exact ⟨.err e s', trivial, fun _ _ => h1⟩
  · simp only [if_neg h]; exact fail hs _

/-- Skipping the value of an unknown key ends, at every colon. -/
abbrev _root_.NS.SkipsUnknown (nx : PM Unit) (I : PSt → Prop) (P H : Prop) : Prop :=
  ∀ s s', I s → I s' → s.tok = .colon → nx s = .ok () s' → Ends (s'.left + 1) I P H (fun n => wholeField nx n) s' (Le s')

omit L in
theorem deField {de : Nat → Ty → PM Val} {f : Field} {m : Nat} (h : ReadsLt B I P H m fun n => de n f.ty)
    (h' : ∀ t, f.ty = .option t → ReadsLt B I P H m fun n => de n t) : ReadsLt B I P H m fun n => deField (de n) f := by
  intro s hs hm
  unfold NS.deField
  generalize f.optProxy = p
  generalize hT : f.ty = T at *
  cases p with
  | false => exact h s hs hm
  | true =>
    cases T with
    | option t => exact bind (f := fun _ v => Pure.pure (Val.some v)) (h' t rfl s hs hm) fun v s1 h1 l1 => pure h1 l1
    | _ => exact h s hs hm

theorem named {de : Nat → Ty → PM Val} {fs : List Field} (cd : Bool) (hW : fs = [] ∨ SkipsUnknown nx I P H)
    (h : ∀ f ∈ fs, ReadsLt B I P H s.left fun n => de n f.ty)
    (h' : ∀ f ∈ fs, ∀ t, f.ty = .option t → ReadsLt B I P H s.left fun n => de n t) (hs : I s) (hB : s.left ≤ B) :
    Ends B I P H (fun n => deJsonNamed nx n (de n) cd fs) s (Less s) := by
  refine bind (f := fun n _ => NS.whileIs .str (jMember nx n (de n) fs) n (fs.map fun _ => none) >>= fun acc =>
    curlyClose nx >>= fun _ => NS.unwrapFields cd fs acc) (expectTok L hs (by decide) _) fun _ s1 h1 ⟨l1, _⟩ => ?_
  refine bind (f := fun n acc => curlyClose nx >>= fun _ => NS.unwrapFields cd fs acc)
    (whileIs (tk := .str) (fun _ => True) (m := s1.left) (a := fs.map fun _ => none)
      (body := fun n => jMember nx n (de n) fs) (fun acc t _ ht htk hm => ?_)
      trivial h1 (Nat.le_refl _) (by omega)) fun acc s2 h2 ⟨l2, _⟩ => ?_
  · refine get ?_
    by_cases hfs : fs.isEmpty = true
    · refine ⟨.err ⟨t.cur.line, t.cur.col, .unexpectedToken t.tok ", or }".toList⟩ t, trivial, fun n _ => ?_⟩
      show (jMemberValue nx n (de n) fs acc t.strbuf >>= fun a => eatCommaCurly nx >>= fun _ => Pure.pure a) t = _
      unfold jMemberValue
      rw [if_pos hfs, M.pure_bind, M.bind_def]
      have : eatCommaCurly nx t = errToken ", or }" t := by
        show (if t.tok = .comma then nx else if t.tok = .curlyClose then Pure.pure () else errToken ", or }" : PM Unit) t = _
        rw [htk]; rfl
      rw [this]; rfl
    · have hW := hW.resolve_left (by rintro rfl; simp at hfs)
      refine bind (f := fun n a => eatCommaCurly nx >>= fun _ => Pure.pure a) (Q := Less t) ?_ fun a t1 i1 k1 =>
        bind (f := fun _ _ => Pure.pure a) (eatComma L i1 _ _) fun _ t2 i2 k2 => pure i2 ⟨Nat.lt_of_le_of_lt k2 k1, trivial⟩
      unfold jMemberValue
      simp only [if_neg hfs]
      cases hff : findField fs t.strbuf with
      | none =>
        refine bind (f := fun n _ => wholeField nx n >>= fun _ => Pure.pure acc) (x := fun _ => nextColon nx)
          (Q := fun _ t2 => t2.left < t.left ∧ ∃ t1, I t1 ∧ t1.tok = .colon ∧ nx t1 = .ok () t2) ?_ ?_
        · refine bind (f := fun _ _ => colon nx) (next_le L ht) fun _ t1 i1 k1 => ?_
          refine (expectTok' L i1 (by decide) _).weaken fun _ t2 i2 ⟨k2, k3, k4⟩ => ⟨?_, t1, i1, k3, k4⟩
          unfold Le at k1; omega
        · rintro _ t2 i2 ⟨k2, t1, i1, k3, k4⟩
          refine bind (f := fun _ _ => Pure.pure acc) ((hW t1 t2 i1 i2 k3 k4).more (by omega)) fun _ t3 i3 k5 => pure i3 ?_
          unfold Le at k5; unfold Less; omega
      | some i =>
        have hi : fs.getD i { name := [], ty := .unit } ∈ fs := by
          have := (List.findIdx?_eq_some_iff_getElem.1 hff).1
          rw [List.getD_eq_getElem?_getD, List.getElem?_eq_getElem this]
          exact List.getElem_mem _
        simp only
        generalize fs.getD i { name := [], ty := .unit } = f at hi
        refine bind (f := fun n _ => NS.deField (de n) f >>= fun v => Pure.pure (acc.set i (.some v))) (x := fun _ => nextColon nx)
          (Q := fun _ t2 => t2.left < t.left) ?_ ?_
        · refine bind (f := fun _ _ => colon nx) (next_le L ht) fun _ t1 i1 k1 => ?_
          refine (expectTok L i1 (by decide) _).weaken fun _ t2 i2 ⟨k2, _⟩ => ?_
          unfold Le at k1; omega
        · intro _ t2 i2 k2
          refine bind (f := fun _ v => Pure.pure (acc.set i (.some v))) (deField (h f hi) (h' f hi) t2 i2 (by omega)) fun v t3 i3 k5 => pure i3 ?_
          unfold Less at *; omega
  · refine bind (f := fun _ _ => NS.unwrapFields cd fs acc) (expectTok L h2 (by decide) _) fun _ s3 h3 ⟨l3, _⟩ => ?_
    refine (unwrapFields cd fs acc h3).weaken fun _ s4 _ l4 => ?_
    unfold Le at l4; unfold Less; omega

theorem tys {de : Nat → Ty → PM Val} {ts : List Ty} (h : ∀ t ∈ ts, ReadsLt B I P H s.left fun n => de n t) (hs : I s) :
    Ends B I P H (fun n => do
      blockOpen nx
      let vs ← NS.deTysEat (de n) (eatCommaBlock nx) ts
      blockClose nx
      Pure.pure vs) s (Less s) := by
  refine bind (f := fun n _ => NS.deTysEat (de n) (eatCommaBlock nx) ts >>= fun vs => blockClose nx >>= fun _ => Pure.pure vs)
    (expectTok L hs (by decide) _) fun _ s1 h1 ⟨l1, _⟩ => ?_
  refine bind (f := fun n vs => blockClose nx >>= fun _ => Pure.pure vs) (deTysEat L _ _ h h1 l1) fun vs s2 h2 l2 => ?_
  refine bind (f := fun n _ => Pure.pure vs) (expectTok L h2 (by decide) _) fun _ s3 h3 ⟨l3, _⟩ => pure h3 ?_
  unfold Le at l2; unfold Less; omega

theorem jEnum {de : Nat → Ty → PM Val} {vars : List Variant}
    (hW : (∀ v ∈ vars, ∀ fs, v.shape = .named fs → fs = []) ∨ SkipsUnknown nx I P H)
    (h : ∀ v ∈ vars, ∀ t, (∃ ts, v.shape = .tuple ts ∧ t ∈ ts) ∨
      (∃ fs f, v.shape = .named fs ∧ f ∈ fs ∧ (f.ty = t ∨ f.ty = .option t)) → ReadsLt B I P H s.left fun n => de n t) (hs : I s) (hB : s.left ≤ B) :
    Ends B I P H (fun n => deJsonEnum nx n (de n) vars) s (Less s) := by
  unfold deJsonEnum
  refine get ?_
  by_cases hc : s.tok = .curlyOpen ∧ vars.any (fun v => !v.isUnit) = true
  · simp only [if_pos hc]
    refine bind (f := fun n _ => NS.expectTok nx .str "String" >>= fun _ => colon nx >>= fun _ => M.get >>= fun (st : PSt) =>
      match findVariant vars false st.strbuf with
      | some j => deJsonShape nx n (de n) (vars.getD j { name := [], shape := .unit }).shape >>= fun vs =>
          curlyClose nx >>= fun _ => Pure.pure (Val.variant j vs)
      | none => errEnum st.strbuf) (expectTok L hs (by decide) _) fun _ s1 h1 ⟨l1, _⟩ => ?_
    refine bind (f := fun n _ => colon nx >>= fun _ => M.get >>= fun (st : PSt) =>
      match findVariant vars false st.strbuf with
      | some j => deJsonShape nx n (de n) (vars.getD j { name := [], shape := .unit }).shape >>= fun vs =>
          curlyClose nx >>= fun _ => Pure.pure (Val.variant j vs)
      | none => errEnum st.strbuf) (expectTok L h1 (by decide) _) fun _ s2 h2 ⟨l2, _⟩ => ?_
    refine bind (f := fun n _ => M.get >>= fun (st : PSt) =>
      match findVariant vars false st.strbuf with
      | some j => deJsonShape nx n (de n) (vars.getD j { name := [], shape := .unit }).shape >>= fun vs =>
          curlyClose nx >>= fun _ => Pure.pure (Val.variant j vs)
      | none => errEnum st.strbuf) (expectTok L h2 (by decide) _) fun _ s3 h3 ⟨l3, _⟩ => ?_
    refine get ?_
    cases hfv : findVariant vars false s3.strbuf with
    | none => exact fail h3 _
    | some j =>
      have hj := (List.findIdx?_eq_some_iff_getElem.1 hfv).1
      have hv : vars.getD j { name := [], shape := .unit } ∈ vars := by
        rw [List.getD_eq_getElem?_getD, List.getElem?_eq_getElem hj]
        exact List.getElem_mem _
      simp only
      generalize vars.getD j { name := [], shape := .unit } = v at hv
      refine bind (f := fun n vs => curlyClose nx >>= fun _ => Pure.pure (Val.variant j vs)) (Q := Le s3) ?_ fun vs s4 h4 l4 =>
        bind (f := fun _ _ => Pure.pure _) (expectTok L h4 (by decide) _) fun _ s5 h5 ⟨l5, _⟩ => pure h5 (by
          unfold Le at l4; unfold Less; omega)
      have sub : ∀ {t}, ReadsLt B I P H s.left (fun n => de n t) → ReadsLt B I P H s3.left (fun n => de n t) :=
        fun hr t ht hm => hr t ht (by omega)
      cases hsh : v.shape with
      | unit => exact pure h3 (Nat.le_refl _)
      | tuple ts =>
        exact (tys L (fun t ht => sub (h v hv t (.inl ⟨ts, hsh, ht⟩))) h3).weaken fun _ _ _ l => Nat.le_of_lt l
      | named fs =>
        exact (named L false (hW.imp (fun g => g v hv fs hsh) id) (fun f hf => sub (h v hv _ (.inr ⟨fs, f, hsh, hf, .inl rfl⟩)))
          (fun f hf t ht => sub (h v hv t (.inr ⟨fs, f, hsh, hf, .inr ht⟩))) h3 (by omega)).weaken fun _ _ _ l => Nat.le_of_lt l
  · simp only [if_neg hc]
    by_cases hc : s.tok = .str ∧ vars.any (fun v => v.isUnit) = true
    · simp only [if_pos hc]
      refine bind (f := fun n _ => M.get >>= fun (st : PSt) =>
        match findVariant vars true st.strbuf with
        | some j => Pure.pure (Val.variant j [])
        | none => errEnum st.strbuf) (expectTok L hs (by decide) _) fun _ s1 h1 ⟨l1, _⟩ => ?_
      refine get ?_
      cases hfv : findVariant vars true s1.strbuf with
      | none => exact fail h1 _
      | some j => exact pure h1 l1
    · simp only [if_neg hc]
      exact fail hs _

end Ends

namespace Ends
/-- Every reader of a productive program returns, provided unknown keys can be skipped and durations
do not overflow (or panics are allowed, or neither occurs in the program). -/
theorem _root_.NS.deJson_ends {env : Env} {fl : FloatOps} {I : PSt → Prop} {P H : Prop} (L : Lexer (jNext fl) I) (hw : ProgWf env)
    (hW : NoNamed env ∨ SkipsUnknown (jNext fl) I P H)
    {D : Prop} (hD : D → P ∨ ∀ t v, I t → t.tok = .u64 v → v + 1 < 2 ^ 63)
    (hDd : D ∨ NoTime env)
    {rank : Ty → Nat} (hp : Ranked env rank) {S : Ty → Prop} (hS : PartsIn env S) {K : Nat} (hK : ∀ u, S u → rank u ≤ K)
    (t : Ty) (ht : TyWf env t) (hSt : S t) (hDt : D ∨ noTime t = true) (s : PSt) (hs : I s) :
    Ends ((K + 1) * s.left + rank t + 1) I P H (fun n => deJson env fl n t) s (Less s) := by
  obtain ⟨r1, r2, r3, r4⟩ := hp
  generalize hso : s.left = so
  generalize hrt : rank t = rt
  induction so using Nat.strongRecOn generalizing s t rt with
  | ind so ihs =>
  induction rt using Nat.strongRecOn generalizing t with
  | ind rt ihr =>
  subst hso hrt
  generalize hBB : (K + 1) * s.left + rank t = BB
  have hB : s.left ≤ BB := by
    have : 1 * s.left ≤ (K + 1) * s.left := Nat.mul_le_mul_right _ (by omega)
    omega
  have sub : ∀ t', S t' → TyWf env t' → (D ∨ noTime t' = true) → ReadsLt BB I P H s.left fun n => deJson env fl n t' := by
    intro t' hSt' ht' hd' s' hs' hl
    refine (ihs _ hl t' ht' hSt' hd' s' hs' rfl _ rfl).more ?_
    have h1 := hK t' hSt'
    have h2 : (K + 1) * (s'.left + 1) ≤ (K + 1) * s.left := Nat.mul_le_mul_left _ hl
    rw [Nat.mul_add] at h2
    omega
  have same : ∀ t', rank t' < rank t → S t' → TyWf env t' → (D ∨ noTime t' = true) →
      Ends BB I P H (fun n => deJson env fl n t') s (Less s) := by
    intro t' hr hSt' ht' hd'
    exact (ihr (rank t') hr t' ht' hSt' hd' rfl).more (by omega)
  have hSt := hS t hSt
  have dTy : ∀ {i : Nat} {d : Def}, env.defs[i]? = some d → ∀ t ∈ d.tys, TyWf env t ∧ (D ∨ noTime t = true) := by
    intro i d hd t ht
    have hm := List.mem_of_getElem? hd
    exact ⟨hw.defs d hm t ht, hDd.imp id fun g => g.1 d hm t ht⟩
  have dNamed : ∀ {i : Nat} {d : Def}, env.defs[i]? = some d → NoNamed env → (∀ fs cd nul, d = .struct fs cd nul → fs = []) ∧
      ∀ vars, d = .enum vars → ∀ v ∈ vars, ∀ fs, v.shape = .named fs → fs = [] :=
    fun hd h => h _ (List.mem_of_getElem? hd)
  have tup : ∀ ts : List Ty, (∀ t ∈ ts, S t) → (∀ t ∈ ts, TyWf env t ∧ (D ∨ noTime t = true)) →
      Ends BB I P H (fun n => NS.deTuple (blockOpen (jNext fl)) (blockClose (jNext fl)) (eatCommaBlock (jNext fl)) (deJson env fl n) ts)
        s (Less s) := by
    intro ts hss hts
    exact deTuple L _ _ _ (by decide) (by decide) (fun t ht => sub t (hss t ht) (hts t ht).1 (hts t ht).2) hs
  apply Ends.succ
  cases t with
  | unit => exact bind (f := fun _ _ => Pure.pure Val.unit) (expectTok L hs (by decide) _) fun _ s1 h1 l1 => Ends.pure h1 l1.1
  | bool =>
    refine get ?_
    cases hb : s.tok with
    | bool b => exact bind (f := fun _ _ => Pure.pure (Val.bool b)) (next_lt L hs (by simp [hb])) fun _ s1 h1 l1 => Ends.pure h1 l1
    | _ => exact Ends.fail hs _
  | int k => exact deInt L hs ht
  | f32 => exact deF32 L hs _
  | f64 => exact deF64 L hs _
  | str => exact bind (f := fun _ a => Pure.pure (Val.str a)) (deStr L hs) fun _ s1 h1 l1 => Ends.pure h1 l1
  | dur => exact (deDur L hs hB (hD (hDt.resolve_right (by simp [noTime])))).weaken fun _ _ _ h => h.1
  | time =>
    refine get ?_
    by_cases hn : s.tok = .null
    · simp only [if_pos hn]
      refine bind (f := fun _ _ => NS.epochAt .none) (next_lt L hs (by simp [hn])) fun _ s1 h1 l1 =>
        (Ends.epochAt h1 (.inr (by intro a b e; cases e))).weaken fun _ _ _ l2 => Nat.lt_of_le_of_lt l2 l1
    · simp only [if_neg hn]
      exact bind (f := fun _ v => NS.epochAt v) (deDur L hs hB (hD (hDt.resolve_right (by simp [noTime])))) fun v s1 h1 l1 =>
        (Ends.epochAt h1 l1.2).weaken fun _ _ _ l2 => Nat.lt_of_le_of_lt l2 l1.1
  | option t =>
    refine get ?_
    by_cases hn : s.tok = .null
    · simp only [if_pos hn]
      exact bind (f := fun _ _ => Pure.pure Val.none) (next_lt L hs (by simp [hn])) fun _ s1 h1 l1 => Ends.pure h1 l1
    · simp only [if_neg hn]
      exact bind (f := fun _ v => Pure.pure (Val.some v)) (same t (r1 t) (hSt t (by simp [Ty.parts])) ht hDt) fun _ s1 h1 l1 => Ends.pure h1 l1
  | vec t => exact deSeq L hs hB (sub t (hSt t (by simp [Ty.parts])) ht hDt) _
  | linked t => exact deSeq L hs hB (sub t (hSt t (by simp [Ty.parts])) ht hDt) _
  | hset t => exact deSeq L hs hB (sub t (hSt t (by simp [Ty.parts])) ht hDt) _
  | bset t => exact deSeq L hs hB (sub t (hSt t (by simp [Ty.parts])) ht hDt) _
  | array t len =>
    refine bind (f := fun n _ => repeatM (thenEat (deJson env fl n t) (eatCommaBlock (jNext fl))) len >>= fun vs =>
      blockClose (jNext fl) >>= fun _ => Pure.pure (Val.seq vs)) (expectTok L hs (by decide) _) fun _ s1 h1 ⟨l1, _⟩ => ?_
    refine bind (f := fun n vs => blockClose (jNext fl) >>= fun _ => Pure.pure (Val.seq vs))
      (repeatEat L _ _ (sub t (hSt t (by simp [Ty.parts])) ht hDt) len h1 l1) fun vs s2 h2 l2 => ?_
    refine bind (f := fun n _ => Pure.pure _) (expectTok L h2 (by decide) _) fun _ s3 h3 ⟨l3, _⟩ => Ends.pure h3 ?_
    unfold Le at l2; unfold Less; omega
  | pair a b =>
    refine tup [a, b] hSt fun t' h => ?_
    have hd := hDt.imp id fun h => by simpa [noTime] using h
    simp only [List.mem_cons, List.not_mem_nil, or_false] at h
    rcases h with rfl | rfl
    · exact ⟨ht.1, hd.imp id (·.1)⟩
    · exact ⟨ht.2, hd.imp id (·.2)⟩
  | triple a b c =>
    refine tup [a, b, c] hSt fun t' h => ?_
    have hd := hDt.imp id fun h => by simpa [noTime] using h
    simp only [List.mem_cons, List.not_mem_nil, or_false] at h
    rcases h with rfl | rfl | rfl
    · exact ⟨ht.1, hd.imp id (·.1.1)⟩
    · exact ⟨ht.2.1, hd.imp id (·.1.2)⟩
    · exact ⟨ht.2.2, hd.imp id (·.2)⟩
  | quad a b c d =>
    refine tup [a, b, c, d] hSt fun t' h => ?_
    have hd := hDt.imp id fun h => by simpa [noTime] using h
    simp only [List.mem_cons, List.not_mem_nil, or_false] at h
    rcases h with rfl | rfl | rfl | rfl
    · exact ⟨ht.1, hd.imp id (·.1.1.1)⟩
    · exact ⟨ht.2.1, hd.imp id (·.1.1.2)⟩
    · exact ⟨ht.2.2.1, hd.imp id (·.1.2)⟩
    · exact ⟨ht.2.2.2, hd.imp id (·.2)⟩
  | hmap k v =>
    have hd := hDt.imp id fun h => by simpa [noTime] using h
    exact deMap L hs hB (sub k (hSt k (by simp [Ty.parts])) ht.1 (hd.imp id (·.1))) (sub v (hSt v (by simp [Ty.parts])) ht.2 (hd.imp id (·.2))) _
  | bmap k v =>
    have hd := hDt.imp id fun h => by simpa [noTime] using h
    exact deMap L hs hB (sub k (hSt k (by simp [Ty.parts])) ht.1 (hd.imp id (·.1))) (sub v (hSt v (by simp [Ty.parts])) ht.2 (hd.imp id (·.2))) _
  | box t => exact bind (f := fun _ v => Pure.pure (Val.box v)) (same t (r2 t) (hSt t (by simp [Ty.parts])) ht hDt) fun _ s1 h1 l1 => Ends.pure h1 l1
  | proxied i =>
    have hi : i < env.proxies.length := ht
    have he := List.getElem?_eq_getElem hi
    have hm := List.getElem_mem hi
    simp only [deJson, he]
    exact bind (f := fun _ p => Pure.pure _) (same _ (r4 i _ he) (hSt _ (by simp [Ty.parts, he])) (hw.proxies _ hm) (hDd.imp id fun g => g.2 _ hm))
      fun _ s1 h1 l1 => Ends.pure h1 l1
  | named i =>
    have hi : i < env.defs.length := ht
    have he := List.getElem?_eq_getElem hi
    have hwd := dTy he
    have hnn := fun h => dNamed he h
    simp only [Ty.parts, he] at hSt
    simp only [deJson, he]
    generalize hd : env.defs[i] = d at *
    have optTy : ∀ {f : Field} {t'}, f.ty = .option t' → (TyWf env f.ty ∧ (D ∨ noTime f.ty = true)) →
        S f.ty → TyWf env t' ∧ (D ∨ noTime t' = true) ∧ S t' := by
      intro f t' h1 h2 h3
      rw [h1] at h2 h3
      exact ⟨h2.1, h2.2, hS _ h3 _ (by simp [Ty.parts])⟩
    cases d with
    | struct fs cd nul =>
      have hf : ∀ f ∈ fs, TyWf env f.ty ∧ (D ∨ noTime f.ty = true) := fun f hf =>
        hwd _ (by simp [Def.tys]; exact ⟨f, hf, rfl⟩)
      have hf' : ∀ f ∈ fs, S f.ty := fun f hf => hSt _ (by simp [Def.tys]; exact ⟨f, hf, rfl⟩)
      exact bind (f := fun _ vs => Pure.pure (Val.struct vs)) (Ends.named L (de := fun n => deJson env fl n) cd
        (hW.imp (fun h => (hnn h).1 fs cd nul rfl) id)
        (fun f h => sub _ (hf' f h) (hf f h).1 (hf f h).2)
        (fun f h t' ht' => have g := optTy ht' (hf f h) (hf' f h); sub _ g.2.2 g.1 g.2.1) hs hB)
        fun _ s1 h1 l1 => Ends.pure h1 l1
    | tuple ts tr =>
      simp only [Def.tys] at hwd hSt
      simp only
      match ts, tr, hwd, hSt, he with
      | [], tr, hwd, hSt, he =>
        refine bind (f := fun _ _ => curlyClose (jNext fl) >>= fun _ => Pure.pure (Val.struct []))
          (expectTok L hs (by decide) _) fun _ s1 h1 ⟨l1, _⟩ => ?_
        refine bind (f := fun _ _ => Pure.pure (Val.struct [])) (expectTok L h1 (by decide) _) fun _ s2 h2 ⟨l2, _⟩ => Ends.pure h2 ?_
        unfold Less; omega
      | [t], true, hwd, hSt, he =>
        exact bind (f := fun _ v => Pure.pure (Val.struct [v])) (same t (r3 i t he) (hSt t (by simp)) (hwd t (by simp)).1 (hwd t (by simp)).2)
          fun _ s1 h1 l1 => Ends.pure h1 l1
      | [t], false, hwd, hSt, he =>
        refine bind (f := fun n _ => deJson env fl n t >>= fun v => blockClose (jNext fl) >>= fun _ => Pure.pure (Val.struct [v]))
          (expectTok L hs (by decide) _) fun _ s1 h1 ⟨l1, _⟩ => ?_
        refine bind (f := fun n v => blockClose (jNext fl) >>= fun _ => Pure.pure (Val.struct [v]))
          (sub t (hSt t (by simp)) (hwd t (by simp)).1 (hwd t (by simp)).2 s1 h1 l1) fun v s2 h2 l2 => ?_
        refine bind (f := fun _ _ => Pure.pure (Val.struct [v])) (expectTok L h2 (by decide) _) fun _ s3 h3 ⟨l3, _⟩ => Ends.pure h3 ?_
        unfold Less at *; omega
      | t :: t' :: ts, tr, hwd, hSt, he =>
        have : ∀ n, deJsonTupleStruct (jNext fl) (deJson env fl n) (t :: t' :: ts) tr = (do
            blockOpen (jNext fl)
            let vs ← NS.deTysEat (deJson env fl n) (eatCommaBlock (jNext fl)) (t :: t' :: ts)
            blockClose (jNext fl)
            Pure.pure (.struct vs)) := by
          intro n; cases tr <;> rfl
        simp only [this]
        refine bind (f := fun n _ => NS.deTysEat (deJson env fl n) (eatCommaBlock (jNext fl)) (t :: t' :: ts) >>= fun vs =>
          blockClose (jNext fl) >>= fun _ => Pure.pure (Val.struct vs)) (expectTok L hs (by decide) _) fun _ s1 h1 ⟨l1, _⟩ => ?_
        refine bind (f := fun n vs => blockClose (jNext fl) >>= fun _ => Pure.pure (Val.struct vs))
          (deTysEat L _ _ (de := fun n => deJson env fl n) (fun u hu => sub u (hSt u hu) (hwd u hu).1 (hwd u hu).2) h1 l1) fun vs s2 h2 l2 => ?_
        refine bind (f := fun _ _ => Pure.pure (Val.struct vs)) (expectTok L h2 (by decide) _) fun _ s3 h3 ⟨l3, _⟩ => Ends.pure h3 ?_
        unfold Le at l2; unfold Less at *; omega
    | enum vars =>
      simp only
      refine jEnum L (de := fun n => deJson env fl n) (hW.imp (fun h => (hnn h).2 vars rfl) id) (fun v hv t' ht' => ?_) hs hB
      have hin : ∀ u, (∃ ts, v.shape = .tuple ts ∧ u ∈ ts) ∨ (∃ fs f, v.shape = .named fs ∧ f ∈ fs ∧ f.ty = u) →
          u ∈ (Def.enum vars).tys := by
        intro u hu
        simp only [Def.tys, List.mem_flatMap]
        refine ⟨v, hv, ?_⟩
        rcases hu with ⟨ts, h1, h2⟩ | ⟨fs, f, h1, h2, rfl⟩
        · rw [h1]; exact h2
        · rw [h1]; exact List.mem_map.2 ⟨f, h2, rfl⟩
      have : TyWf env t' ∧ (D ∨ noTime t' = true) ∧ S t' := by
        rcases ht' with h | ⟨fs, f, h1, h2, h3 | h3⟩
        · exact ⟨(hwd _ (hin _ (.inl h))).1, (hwd _ (hin _ (.inl h))).2, hSt _ (hin _ (.inl h))⟩
        · have g := hin _ (.inr ⟨fs, f, h1, h2, h3⟩)
          exact ⟨(hwd _ g).1, (hwd _ g).2, hSt _ g⟩
        · have g := hin _ (.inr ⟨fs, f, h1, h2, rfl⟩)
          exact optTy h3 (hwd _ g) (hSt _ g)
      exact sub t' this.2.2 this.1 this.2.1

end Ends
end NS
