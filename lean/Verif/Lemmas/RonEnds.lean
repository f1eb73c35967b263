import Verif.Lemmas.JsonHalts
import Verif.Lemmas.RonSim
import Verif.Lemmas.JsonScan
import Verif.Lemmas.JsonPos
import Verif.Spec.RonScan
/-! The RON readers return. -/
namespace NS
namespace Ends
variable {B : Nat} {I : PSt → Prop} {P H : Prop} {s : PSt} {nx : PM Unit} (L : Lexer nx I)
include L

theorem rNamed {de : Nat → Ty → PM Val} {fs : List Field} (cd : Bool)
    (h : ∀ f ∈ fs, ReadsLt B I P H s.left fun n => de n f.ty) (hs : I s) (hB : s.left ≤ B) :
    Ends B I P H (fun n => deRonNamed nx n (de n) cd fs) s (Less s) := by
  refine bind (f := fun n _ => NS.whileIs .ident (rMember nx (de n) fs) n (fs.map fun _ => none) >>= fun acc =>
    parenClose nx >>= fun _ => NS.unwrapFields cd fs acc) (expectTok L hs (by decide) _) fun _ s1 h1 ⟨l1, _⟩ => ?_
  refine bind (f := fun n acc => parenClose nx >>= fun _ => NS.unwrapFields cd fs acc)
    (whileIs (tk := .ident) (fun _ => True) (m := s1.left) (a := fs.map fun _ => none)
      (body := fun n => rMember nx (de n) fs) (fun acc t _ ht htk hm => ?_)
      trivial h1 (Nat.le_refl _) (by omega)) fun acc s2 h2 ⟨l2, _⟩ => ?_
  · refine get ?_
    by_cases hfs : fs.isEmpty = true
    · refine ⟨.err ⟨t.cur.line, t.cur.col, .unexpectedToken t.tok ", or )".toList⟩ t, trivial, fun n _ => ?_⟩
      show (rMemberValue nx (de n) fs acc t.identbuf >>= fun a => eatCommaParen nx >>= fun _ => Pure.pure a) t = _
      unfold rMemberValue
      rw [if_pos hfs, M.pure_bind, M.bind_def]
      have : eatCommaParen nx t = errToken ", or )" t := by
        show (if t.tok = .comma then nx else if t.tok = .parenClose then Pure.pure () else errToken ", or )" : PM Unit) t = _
        rw [htk]; rfl
      rw [this]; rfl
    · refine bind (f := fun n a => eatCommaParen nx >>= fun _ => Pure.pure a) (Q := Less t) ?_ fun a t1 i1 k1 =>
        bind (f := fun _ _ => Pure.pure a) (eatComma L i1 _ _) fun _ t2 i2 k2 => pure i2 ⟨Nat.lt_of_le_of_lt k2 k1, trivial⟩
      unfold rMemberValue
      simp only [if_neg hfs]
      cases hff : findField fs t.identbuf with
      | none => exact fail ht _
      | some i =>
        have hi : fs.getD i { name := [], ty := .unit } ∈ fs := by
          have := (List.findIdx?_eq_some_iff_getElem.1 hff).1
          rw [List.getD_eq_getElem?_getD, List.getElem?_eq_getElem this]
          exact List.getElem_mem _
        simp only
        generalize fs.getD i { name := [], ty := .unit } = f at hi
        refine bind (f := fun n _ => de n f.ty >>= fun v => Pure.pure (acc.set i (.some v))) (x := fun _ => nextColon nx)
          (Q := fun _ t2 => t2.left < t.left) ?_ ?_
        · refine bind (f := fun _ _ => colon nx) (next_le L ht) fun _ t1 i1 k1 => ?_
          refine (expectTok L i1 (by decide) _).weaken fun _ t2 i2 ⟨k2, _⟩ => ?_
          unfold Le at k1; omega
        · intro _ t2 i2 k2
          refine bind (f := fun _ v => Pure.pure (acc.set i (.some v))) (h f hi t2 i2 (by omega)) fun v t3 i3 k5 => pure i3 ?_
          unfold Less at *; omega
  · refine bind (f := fun _ _ => NS.unwrapFields cd fs acc) (expectTok L h2 (by decide) _) fun _ s3 h3 ⟨l3, _⟩ => ?_
    refine (unwrapFields cd fs acc h3).weaken fun _ s4 _ l4 => ?_
    unfold Le at l4; unfold Less; omega

theorem rTys {de : Nat → Ty → PM Val} {ts : List Ty} (h : ∀ t ∈ ts, ReadsLt B I P H s.left fun n => de n t) (hs : I s) :
    Ends B I P H (fun n => deRonTys nx (de n) ts) s (Less s) := by
  refine bind (f := fun n _ => NS.deTysEat (de n) (eatCommaParen nx) ts >>= fun vs => parenClose nx >>= fun _ => Pure.pure vs)
    (expectTok L hs (by decide) _) fun _ s1 h1 ⟨l1, _⟩ => ?_
  refine bind (f := fun n vs => parenClose nx >>= fun _ => Pure.pure vs) (deTysEat L _ _ h h1 l1) fun vs s2 h2 l2 => ?_
  refine bind (f := fun n _ => Pure.pure vs) (expectTok L h2 (by decide) _) fun _ s3 h3 ⟨l3, _⟩ => pure h3 ?_
  unfold Le at l2; unfold Less; omega

theorem rEnum {de : Nat → Ty → PM Val} {vars : List Variant}
    (h : ∀ v ∈ vars, ∀ t, (∃ ts, v.shape = .tuple ts ∧ t ∈ ts) ∨
      (∃ fs f, v.shape = .named fs ∧ f ∈ fs ∧ f.ty = t) → ReadsLt B I P H s.left fun n => de n t) (hs : I s) (hB : s.left ≤ B) :
    Ends B I P H (fun n => deRonEnum nx n (de n) vars) s (Less s) := by
  refine bind (f := fun n _ => M.get >>= fun (st : PSt) =>
    match vars.findIdx? (fun v => v.name == st.identbuf) with
    | some j => deRonShape nx n (de n) (vars.getD j { name := [], shape := .unit }).shape >>= fun vs => Pure.pure (Val.variant j vs)
    | none => errEnum st.identbuf) (expectTok L hs (by decide) _) fun _ s1 h1 ⟨l1, _⟩ => ?_
  refine get ?_
  cases hfv : vars.findIdx? (fun v => v.name == s1.identbuf) with
  | none => exact fail h1 _
  | some j =>
    have hj := (List.findIdx?_eq_some_iff_getElem.1 hfv).1
    have hv : vars.getD j { name := [], shape := .unit } ∈ vars := by
      rw [List.getD_eq_getElem?_getD, List.getElem?_eq_getElem hj]
      exact List.getElem_mem _
    simp only
    generalize vars.getD j { name := [], shape := .unit } = v at hv
    refine bind (f := fun n vs => Pure.pure (Val.variant j vs)) (Q := Le s1) ?_ fun vs s4 h4 l4 => pure h4 (by
      unfold Le at l4; unfold Less; omega)
    have sub : ∀ {t}, ReadsLt B I P H s.left (fun n => de n t) → ReadsLt B I P H s1.left (fun n => de n t) :=
      fun hr t ht hm => hr t ht (by omega)
    cases hsh : v.shape with
    | unit => exact pure h1 (Nat.le_refl _)
    | tuple ts =>
      exact (rTys L (fun t ht => sub (h v hv t (.inl ⟨ts, hsh, ht⟩))) h1).weaken fun _ _ _ l => Nat.le_of_lt l
    | named fs =>
      exact (rNamed L false (fun f hf => sub (h v hv _ (.inr ⟨fs, f, hsh, hf, rfl⟩))) h1 (by omega)).weaken
        fun _ _ _ l => Nat.le_of_lt l

end Ends

namespace Ends
/-- Every RON reader of a program without proxies returns, provided durations do not overflow (or panics
are allowed, or neither occurs in the program). -/
theorem _root_.NS.deRon_ends {env : Env} {fl : FloatOps} {I : PSt → Prop} {P H : Prop} (L : Lexer (rNext fl) I) (hw : ProgWf env)
    (hnp : env.proxies = [])
    {D : Prop} (hD : D → P ∨ ∀ t v, I t → t.tok = .u64 v → v + 1 < 2 ^ 63)
    (hDd : D ∨ NoTime env)
    {S : Ty → Prop} (hS : PartsIn env S) {K : Nat} (hK : ∀ u, S u → sizeOf u ≤ K)
    (t : Ty) (ht : TyWf env t) (hSt : S t) (hDt : D ∨ noTime t = true) (s : PSt) (hs : I s) :
    Ends ((K + 1) * s.left + sizeOf t + 1) I P H (fun n => deRon env fl n t) s (Less s) := by
  generalize hso : s.left = so
  generalize hrt : sizeOf t = rt
  induction so using Nat.strongRecOn generalizing s t rt with
  | ind so ihs =>
  induction rt using Nat.strongRecOn generalizing t with
  | ind rt ihr =>
  subst hso hrt
  generalize hBB : (K + 1) * s.left + sizeOf t = BB
  have hB : s.left ≤ BB := by
    have : 1 * s.left ≤ (K + 1) * s.left := Nat.mul_le_mul_right _ (by omega)
    omega
  have sub : ∀ t', S t' → TyWf env t' → (D ∨ noTime t' = true) → ReadsLt BB I P H s.left fun n => deRon env fl n t' := by
    intro t' hSt' ht' hd' s' hs' hl
    refine (ihs _ hl t' ht' hSt' hd' s' hs' rfl _ rfl).more ?_
    have h1 := hK t' hSt'
    have h2 : (K + 1) * (s'.left + 1) ≤ (K + 1) * s.left := Nat.mul_le_mul_left _ hl
    rw [Nat.mul_add] at h2
    omega
  have same : ∀ t', sizeOf t' < sizeOf t → S t' → TyWf env t' → (D ∨ noTime t' = true) →
      Ends BB I P H (fun n => deRon env fl n t') s (Less s) := by
    intro t' hr hSt' ht' hd'
    exact (ihr (sizeOf t') hr t' ht' hSt' hd' rfl).more (by omega)
  have hSt := hS t hSt
  have dTy : ∀ {i : Nat} {d : Def}, env.defs[i]? = some d → ∀ t ∈ d.tys, TyWf env t ∧ (D ∨ noTime t = true) := by
    intro i d hd t ht
    have hm := List.mem_of_getElem? hd
    exact ⟨hw.defs d hm t ht, hDd.imp id fun g => g.1 d hm t ht⟩
  have tup : ∀ ts : List Ty, (∀ t ∈ ts, S t) → (∀ t ∈ ts, TyWf env t ∧ (D ∨ noTime t = true)) →
      Ends BB I P H (fun n => NS.deTuple (parenOpen (rNext fl)) (parenClose (rNext fl)) (eatCommaParen (rNext fl)) (deRon env fl n) ts)
        s (Less s) := by
    intro ts hss hts
    exact deTuple L _ _ _ (by decide) (by decide) (fun t ht => sub t (hss t ht) (hts t ht).1 (hts t ht).2) hs
  have hAt : atNone s = true → s.tok ≠ .eof := by
    intro h e
    simp [atNone, e] at h
  apply Ends.succ
  cases t with
  | unit =>
    refine bind (f := fun _ _ => parenClose (rNext fl) >>= fun _ => Pure.pure Val.unit) (expectTok L hs (by decide) _)
      fun _ s1 h1 l1 => ?_
    refine bind (f := fun _ _ => Pure.pure Val.unit) (expectTok L h1 (by decide) _) fun _ s2 h2 l2 => Ends.pure h2 ?_
    have := l1.1; have := l2.1; unfold Less; omega
  | bool =>
    refine get ?_
    cases hb : s.tok with
    | bool b => exact bind (f := fun _ _ => Pure.pure (Val.bool b)) (next_lt L hs (by simp [hb])) fun _ s1 h1 l1 => Ends.pure h1 l1
    | u64 v => exact bind (f := fun _ _ => Pure.pure (Val.bool (v != 0))) (next_lt L hs (by simp [hb])) fun _ s1 h1 l1 => Ends.pure h1 l1
    | _ => exact Ends.fail hs _
  | int k => exact deInt L hs ht
  | f32 => exact deF32 L hs _
  | f64 => exact deF64 L hs _
  | str => exact bind (f := fun _ a => Pure.pure (Val.str a)) (deStr L hs) fun _ s1 h1 l1 => Ends.pure h1 l1
  | dur => exact (deDur L hs hB (hD (hDt.resolve_right (by simp [noTime])))).weaken fun _ _ _ h => h.1
  | time =>
    refine get ?_
    by_cases hn : atNone s = true
    · simp only [if_pos hn]
      refine bind (f := fun _ _ => NS.epochAt .none) (next_lt L hs (hAt hn)) fun _ s1 h1 l1 =>
        (Ends.epochAt h1 (.inr (by intro a b e; cases e))).weaken fun _ _ _ l2 => Nat.lt_of_le_of_lt l2 l1
    · simp only [if_neg hn]
      exact bind (f := fun _ v => NS.epochAt v) (deDur L hs hB (hD (hDt.resolve_right (by simp [noTime])))) fun v s1 h1 l1 =>
        (Ends.epochAt h1 l1.2).weaken fun _ _ _ l2 => Nat.lt_of_le_of_lt l2 l1.1
  | option t =>
    refine get ?_
    by_cases hn : atNone s = true
    · simp only [if_pos hn]
      exact bind (f := fun _ _ => Pure.pure Val.none) (next_lt L hs (hAt hn)) fun _ s1 h1 l1 => Ends.pure h1 l1
    · simp only [if_neg hn]
      exact bind (f := fun _ v => Pure.pure (Val.some v)) (same t (by simp) (hSt t (by simp [Ty.parts])) ht hDt) fun _ s1 h1 l1 => Ends.pure h1 l1
  | vec t => exact deSeq L hs hB (sub t (hSt t (by simp [Ty.parts])) ht hDt) _
  | linked t => exact deSeq L hs hB (sub t (hSt t (by simp [Ty.parts])) ht hDt) _
  | hset t => exact deSeq L hs hB (sub t (hSt t (by simp [Ty.parts])) ht hDt) _
  | bset t => exact deSeq L hs hB (sub t (hSt t (by simp [Ty.parts])) ht hDt) _
  | array t len =>
    refine bind (f := fun n _ => repeatM (thenEat (deRon env fl n t) (eatCommaParen (rNext fl))) len >>= fun vs =>
      parenClose (rNext fl) >>= fun _ => Pure.pure (Val.seq vs)) (expectTok L hs (by decide) _) fun _ s1 h1 ⟨l1, _⟩ => ?_
    refine bind (f := fun n vs => parenClose (rNext fl) >>= fun _ => Pure.pure (Val.seq vs))
      (repeatEat L _ _ (sub t (hSt t (by simp [Ty.parts])) ht hDt) len h1 l1) fun vs s2 h2 l2 => ?_
    refine bind (f := fun n _ => Pure.pure _) (expectTok L h2 (by decide) _) fun _ s3 h3 ⟨l3, _⟩ => Ends.pure h3 ?_
    unfold Le at l2; unfold Less; omega
  | pair a b =>
    refine tup [a, b] hSt fun t' h => ?_
    have hd := hDt.imp id fun h => by simpa [noTime] using h
    simp only [List.mem_cons, List.not_mem_nil, or_false] at h
    rcases h with rfl | rfl
    · exact ⟨ht.1, hd.imp id (·.1)⟩
    · exact ⟨ht.2, hd.imp id (·.2)⟩
  | triple a b c =>
    refine tup [a, b, c] hSt fun t' h => ?_
    have hd := hDt.imp id fun h => by simpa [noTime] using h
    simp only [List.mem_cons, List.not_mem_nil, or_false] at h
    rcases h with rfl | rfl | rfl
    · exact ⟨ht.1, hd.imp id (·.1.1)⟩
    · exact ⟨ht.2.1, hd.imp id (·.1.2)⟩
    · exact ⟨ht.2.2, hd.imp id (·.2)⟩
  | quad a b c d =>
    refine tup [a, b, c, d] hSt fun t' h => ?_
    have hd := hDt.imp id fun h => by simpa [noTime] using h
    simp only [List.mem_cons, List.not_mem_nil, or_false] at h
    rcases h with rfl | rfl | rfl | rfl
    · exact ⟨ht.1, hd.imp id (·.1.1.1)⟩
    · exact ⟨ht.2.1, hd.imp id (·.1.1.2)⟩
    · exact ⟨ht.2.2.1, hd.imp id (·.1.2)⟩
    · exact ⟨ht.2.2.2, hd.imp id (·.2)⟩
  | hmap k v =>
    have hd := hDt.imp id fun h => by simpa [noTime] using h
    exact deMap L hs hB (sub k (hSt k (by simp [Ty.parts])) ht.1 (hd.imp id (·.1))) (sub v (hSt v (by simp [Ty.parts])) ht.2 (hd.imp id (·.2))) _
  | bmap k v =>
    have hd := hDt.imp id fun h => by simpa [noTime] using h
    exact deMap L hs hB (sub k (hSt k (by simp [Ty.parts])) ht.1 (hd.imp id (·.1))) (sub v (hSt v (by simp [Ty.parts])) ht.2 (hd.imp id (·.2))) _
  | box t => exact bind (f := fun _ v => Pure.pure (Val.box v)) (same t (by simp) (hSt t (by simp [Ty.parts])) ht hDt) fun _ s1 h1 l1 => Ends.pure h1 l1
  | proxied i =>
    have hi : i < env.proxies.length := ht
    rw [hnp] at hi; simp at hi
  | named i =>
    have hi : i < env.defs.length := ht
    have he := List.getElem?_eq_getElem hi
    have hwd := dTy he
    simp only [Ty.parts, he] at hSt
    simp only [deRon, he]
    generalize hd : env.defs[i] = d at *
    cases d with
    | struct fs cd nul =>
      have hf : ∀ f ∈ fs, TyWf env f.ty ∧ (D ∨ noTime f.ty = true) := fun f hf =>
        hwd _ (by simp [Def.tys]; exact ⟨f, hf, rfl⟩)
      exact bind (f := fun _ vs => Pure.pure (Val.struct vs)) (Ends.rNamed L (de := fun n => deRon env fl n) cd
        (fun f h => sub _ (hSt _ (by simp [Def.tys]; exact ⟨f, h, rfl⟩)) (hf f h).1 (hf f h).2) hs hB)
        fun _ s1 h1 l1 => Ends.pure h1 l1
    | tuple ts tr =>
      simp only [Def.tys] at hwd hSt
      exact bind (f := fun _ vs => Pure.pure (Val.struct vs)) (Ends.rTys L (de := fun n => deRon env fl n)
        (fun u hu => sub u (hSt u hu) (hwd u hu).1 (hwd u hu).2) hs) fun _ s1 h1 l1 => Ends.pure h1 l1
    | enum vars =>
      simp only
      refine rEnum L (de := fun n => deRon env fl n) (fun v hv t' ht' => ?_) hs hB
      have hin : ∀ u, (∃ ts, v.shape = .tuple ts ∧ u ∈ ts) ∨ (∃ fs f, v.shape = .named fs ∧ f ∈ fs ∧ f.ty = u) →
          u ∈ (Def.enum vars).tys := by
        intro u hu
        simp only [Def.tys, List.mem_flatMap]
        refine ⟨v, hv, ?_⟩
        rcases hu with ⟨ts, h1, h2⟩ | ⟨fs, f, h1, h2, rfl⟩
        · rw [h1]; exact h2
        · rw [h1]; exact List.mem_map.2 ⟨f, h2, rfl⟩
      have := hwd _ (hin _ ht')
      exact sub t' (hSt _ (hin _ ht')) this.1 this.2

end Ends

/-! ## Integers read occur in the text -/

variable {fl : FloatOps}

theorem lexNum_u64 (k) (fl : FloatOps) (c : Cur) {v : Nat} (h : (lexNum k fl c).1 = some (.u64 v)) :
    ∃ a ds b, c.txt = a ++ ds ++ b ∧ Digits ds ∧ decimal ds = v := by
  have hspan : ∃ a ds b, c.txt = a ++ ds ++ b ∧ Digits ds ∧
      ds = ((if c.ch = '-' ∨ c.ch = '+' then ([c.ch], c.next k) else (([] : List Char), c)).2.span k isDig).1 := by
    split
    · rename_i hc
      have hz : c.ch ≠ '\x00' := by rcases hc with h | h <;> rw [h] <;> decide
      obtain ⟨g1, g2, _⟩ := span_spec k isDig (c.next k)
      refine ⟨[c.ch], _, ((c.next k).span k isDig).2.txt, ?_, isDig_digits g2, rfl⟩
      have := Cur.ch_pos rfl hz
      rw [List.append_assoc, ← g1]
      have e : (c.next k).txt = c.txt.tail := by simp
      rw [e]; exact this
    · obtain ⟨g1, g2, _⟩ := span_spec k isDig c
      exact ⟨[], _, (c.span k isDig).2.txt, g1, isDig_digits g2, rfl⟩
  obtain ⟨a, ds, b, e1, e2, e3⟩ := hspan
  refine ⟨a, ds, b, e1, e2, ?_⟩
  have key : ∀ (A B : Prop) [Decidable A] [Decidable B] (o : Option (BitVec 64)) (d1 : List Char) (c : Cur),
      (if A then (o.map Tok.f64, c) else if B then (parseI64 d1, c) else (parseU64 ds, c)).1 = some (.u64 v) → decimal ds = v := by
    intro A B _ _ o d1 c h
    split at h
    · cases o <;> cases h
    split at h
    · unfold parseI64 at h
      simp only at h
      split at h
      · cases h
      split at h
      · cases h
      · cases h
    · unfold parseU64 at h
      simp only at h
      split at h
      · cases h
      split at h
      · injection h with h; injection h with h
        rw [← digitsVal_decimal]; exact h
      · cases h
  unfold lexNum at h
  simp only at h
  rw [← e3] at h
  exact key _ _ _ _ _ h

theorem rTok_u64 {s s' : PSt} {v : Nat} (h : rTok fl s = .ok () s') (hv : s'.tok = .u64 v) :
    ∃ a ds b, s.cur.txt = a ++ ds ++ b ∧ Digits ds ∧ decimal ds = v := by
  unfold rTok at h
  simp only at h
  split at h
  · injection h with _ h; subst h; cases hv
  split at h
  · rename_i t ht
    injection h with _ h; subst h
    simp only [rPunct] at ht
    simp only at hv
    subst hv
    repeat (split at ht <;> first | cases ht | skip)
  split at h
  · split at h
    · rename_i t c' hl
      injection h with _ h; subst h
      simp only at hv
      subst hv
      exact lexNum_u64 rcol fl s.cur (by rw [hl])
    · cases h
  split at h
  · repeat (split at h <;> first | (injection h with _ h; subst h; cases hv) | skip)
    all_goals (injection h with _ h; subst h; cases hv)
  split at h
  · split at h
    · injection h with _ h; subst h; cases hv
    · cases h
    · cases h
  · cases h

/-- A suffix of the input. -/
def sufRel (input : List Char) (k) : CurRel k where
  Q c c' := c' = c ∧ ∃ pre, input = pre ++ c.txt
  txt h := by rw [h.1]
  next {c c'} h := by
    obtain ⟨h, pre, e⟩ := h
    refine ⟨by rw [h], ?_⟩
    rw [e]
    cases ht : c.txt with
    | nil => exact ⟨pre, by simp [ht]⟩
    | cons x t => exact ⟨pre ++ [x], by simp [ht]⟩

/-- The state of a reader of the text `input`. -/
def InText (input : List Char) (s : PSt) : Prop :=
  AtEof s ∧ (∃ pre, input = pre ++ s.cur.txt) ∧ ∀ v, s.tok = .u64 v → ∃ a ds b, input = a ++ ds ++ b ∧ Digits ds ∧ decimal ds = v

theorem inText_lexer (input : List Char) : Lexer (rNext fl) (InText input) where
  setStr _ _ h := h
  total := rNext_total
  run s hs := by
    rcases (rNext_lexer (fl := fl)).run s hs.1 with ⟨s', e, h1, h2⟩ | h
    · refine .inl ⟨s', e, ⟨h1, ?_, ?_⟩, h2⟩
      · have := (sufRel input rcol).rNext (P := True) fl s s ⟨⟨rfl, hs.2.1⟩, rfl, rfl, rfl⟩
        rw [e] at this
        exact this.2.1.2
      · intro v hv
        unfold rNext at e
        have hk := (sufRel input rcol).rSkip (P := True) (s.cur.txt.length + 1) s s ⟨⟨rfl, hs.2.1⟩, rfl, rfl, rfl⟩
        cases hr : rSkip (s.cur.txt.length + 1) s with
        | ok u s1 =>
          rw [hr] at e hk
          obtain ⟨a, ds, b, g1, g2, g3⟩ := rTok_u64 e hv
          obtain ⟨pre, g4⟩ := hk.2.1.2
          exact ⟨pre ++ a, ds, b, by rw [g4, g1]; simp, g2, g3⟩
        | err _ _ => rw [hr] at e; cases e
        | panic => rw [hr] at e; cases e
        | oof => rw [hr] at e; cases e
    · exact .inr h

/-- The outcome of the RON reader on any text. -/
theorem ron_bound {env : Env} (hw : ProgWf env) (hnp : env.proxies = []) {S : Ty → Prop} (hS : PartsIn env S)
    {K : Nat} (hK : ∀ u, S u → sizeOf u ≤ K) (t : Ty) (hSt : S t) (ht : TyWf env t)
    (input : List Char) {D : Prop} (hD : D ∨ NoTime env ∧ noTime t = true) :
    ∃ o, (∀ n, (K + 1) * (input.length + 2) ≤ n → deserializeRon env fl n t input = o) ∧ (o = .panic → D ∧ HugeDigits input) ∧ o ≠ .oof := by
  have hI : InText input (initSt rcol input) :=
    ⟨by intro h; simp [initSt] at h, ⟨[], by simp [initSt]⟩, by intro v h; simp [initSt] at h⟩
  have h : Ends ((K + 1) * (input.length + 2)) (InText input) (D ∧ HugeDigits input) False
      (fun n => rNext fl >>= fun _ => deRon env fl n t) (initSt rcol input) (fun _ _ => True) := by
    refine Ends.bind (f := fun n _ => deRon env fl n t) (Ends.next_le (inText_lexer input) hI) fun _ s1 h1 l1 => ?_
    refine ((deRon_ends (inText_lexer input) hw hnp (D := D) (fun hd => ?_) (hD.imp id And.left) hS hK t ht hSt
      (hD.imp id And.right) s1 h1).weaken fun _ _ _ _ => trivial).more (enough (hK t hSt) l1)
    by_cases hH : HugeDigits input
    · exact .inl ⟨hd, hH⟩
    · refine .inr fun s v hs htk => ?_
      obtain ⟨a, ds, b, g1, g2, g3⟩ := hs.2.2 v htk
      refine Decidable.not_not.1 fun hn => hH ⟨a, ds, b, g1, g2, by omega⟩
  obtain ⟨o, g1, g2⟩ := h
  refine ⟨o, g2, ?_, ?_⟩
  · rintro rfl; exact g1
  · rintro rfl; exact g1

theorem ron_outcome {env : Env} (hw : ProgWf env) (hnp : env.proxies = []) (t : Ty) (ht : TyWf env t)
    (input : List Char) {D : Prop} (hD : D ∨ NoTime env ∧ noTime t = true) :
    ∃ N o, (∀ n, N ≤ n → deserializeRon env fl n t input = o) ∧ (o = .panic → D ∧ HugeDigits input) ∧ o ≠ .oof := by
  obtain ⟨K, hK⟩ := bounded_on sizeOf (progTys env t)
  exact ⟨_, ron_bound hw hnp (progTys_closed env t) hK t (progTys_self env t) ht input hD⟩

end NS
