import Verif.Model.JsonI32
import Verif.Lemmas.Progress
import Verif.Lemmas.Sim
/-! The `i32` counter of `whole_field` counts no further than the text is long. -/
namespace NS

/-- Text too short for 2^31 - 1 brackets. -/
def Fits (s : PSt) : Prop := s.cur.txt.length < 2 ^ 31 - 1

/-- The same state twice, and too little text left. -/
def simFit : Sim where
  R s s' := s' = s ∧ Fits s
  E := Eq
  P := True
  tok := by rintro _ _ ⟨rfl, _⟩; rfl
  str := by rintro _ _ ⟨rfl, _⟩; rfl
  ident := by rintro _ _ ⟨rfl, _⟩; rfl
  setStr := by rintro _ _ _ ⟨rfl, h⟩; exact ⟨rfl, h⟩
  err := by rintro _ _ _ ⟨rfl, _⟩; rfl

theorem simFit_eq {α : Type} {x y : PM α} {s : PSt} (hs : Fits s) (h1 : Rel simFit x y) (h2 : Rel simFit y x) : x s = y s := by
  have a := h1 s s ⟨rfl, hs⟩
  have b := h2 s s ⟨rfl, hs⟩
  cases hx : x s <;> cases hy : y s <;> rw [hx, hy] at a b <;> first
    | rfl
    | (exact a.elim)
    | (exact b.elim)
    | (obtain ⟨rfl, rfl, _⟩ := a; rfl)
    | exact (a.elim False.elim fun h => by obtain ⟨h1, h2, _⟩ := h; cases (show _ = _ from h1); cases h2; rfl)

/-! ## The lexer never goes back -/

theorem lexStr_bad_len (k) (n : Nat) (c : Cur) (buf : List Char) :
    ∀ c' b, lexStr k n c buf = .bad c' b → c'.txt.length ≤ c.txt.length := by
  induction n generalizing c buf with
  | zero => intro c' b h; cases h
  | succ n ih =>
    intro c' b h
    unfold lexStr at h
    simp only at h
    split at h
    · cases h
    split at h
    · split at h
      · injection h with h1 _; subst h1; simp
      split at h
      · have hl := hexUnescape_txt k (c.next k)
        simp only [Cur.next_txt, List.length_tail] at hl
        generalize hexUnescape k (c.next k) = r at hl h
        obtain ⟨o, c2⟩ := r
        cases o with
        | none => injection h with h1 _; subst h1; simp only at hl; omega
        | some ch => have := ih _ _ _ _ h; simp only at hl; omega
      · have := ih _ _ _ _ h; simp at this; omega
    split at h
    · injection h with h1 _; subst h1; simp
    · have := ih _ _ _ _ h; simp at this; omega

theorem jSkip_bad_len (n : Nat) (c c' : Cur) (w) (h : jSkip n c = .bad c' w) : c'.txt.length ≤ c.txt.length := by
  induction n generalizing c with
  | zero => cases h
  | succ n ih =>
    unfold jSkip at h
    simp only at h
    have hw := span_len jcol isWs c
    generalize (c.span jcol isWs).2 = w at hw h
    split at h
    · split at h
      · have := ih _ h
        have := span_len jcol (fun x => x ≠ '\n' && x ≠ '\x00') (w.next jcol)
        simp at *; omega
      split at h
      · have hb := jBlock_txt (w.next jcol).txt (w.next jcol).ch (w.next jcol).line (w.next jcol).col
        generalize jBlock (w.next jcol).txt (w.next jcol).ch (w.next jcol).line (w.next jcol).col = r at hb h
        obtain ⟨b, c2⟩ := r
        cases b with
        | false => injection h with h1 _; subst h1; simp at *; omega
        | true => have := ih _ h; simp at *; omega
      · injection h with h1 _; subst h1; simp at *; omega
    · cases h

/-- A `next_tok` that fails has not gone back either. -/
theorem jTok_err_len {fl : FloatOps} {s s' : PSt} {e} (h : jTok fl s = .err e s') : s'.cur.txt.length ≤ s.cur.txt.length := by
  unfold jTok at h
  simp only at h
  split at h
  · cases h
  rename_i h0
  split at h
  · cases h
  split at h
  · rename_i hd
    have hl := lexNum_len jcol fl (c := s.cur) (.inr hd)
    generalize lexNum jcol fl s.cur = r at hl h
    obtain ⟨o, c'⟩ := r
    cases o with
    | none => cases h; exact Nat.le_of_lt hl
    | some t => cases h
  split at h
  · have hl := span_len jcol isIdStart s.cur
    split at h
    · cases h
    split at h
    · cases h
    split at h
    · cases h
    · cases h; exact hl
  split at h
  · have hl := lexStr_bad_len jcol (s.cur.txt.length + 1) (s.cur.next jcol) []
    generalize lexStr jcol (s.cur.txt.length + 1) (s.cur.next jcol) [] = r at hl h
    cases r with
    | oof => cases h
    | done c' b => cases h
    | bad c' b =>
      cases h
      have := hl _ _ rfl
      simp at this ⊢; omega
  · cases h; exact Nat.le_refl _

theorem jNext_err_len {fl : FloatOps} {s s' : PSt} {e} (h : jNext fl s = .err e s') : s'.cur.txt.length ≤ s.cur.txt.length := by
  unfold jNext at h
  have h1 := jSkip_len (s.cur.txt.length + 1) s.cur
  have h2 := jSkip_bad_len (s.cur.txt.length + 1) s.cur
  generalize jSkip (s.cur.txt.length + 1) s.cur = r at h1 h2 h
  cases r with
  | oof => cases h
  | bad c w => cases h; exact h2 _ _ rfl
  | «at» c => have := jTok_err_len h; have := h1 c rfl; simp only at *; omega

/-- A `next_tok` that succeeds has passed something, or the text has ended. -/
theorem jNext_ok_len {fl : FloatOps} {s s' : PSt} (h : jNext fl s = .ok () s') :
    (s'.tok = .eof ∧ s'.cur.txt.length ≤ s.cur.txt.length) ∨ s'.cur.txt.length < s.cur.txt.length := by
  unfold jNext at h
  have h1 := jSkip_len (s.cur.txt.length + 1) s.cur
  generalize jSkip (s.cur.txt.length + 1) s.cur = r at h1 h
  cases r with
  | oof => cases h
  | bad c w => cases h
  | «at» c =>
    have h1 := h1 c rfl
    rcases jTok_prog (fl := fl) { s with cur := c } with ⟨s2, e, h3⟩ | ⟨_, _, s2, e, _⟩ | ⟨_, _, s2, e, _⟩
    · simp only at h
      rw [e] at h
      cases h
      rcases h3 with ⟨a, b, _⟩ | ⟨a, _⟩
      · left; refine ⟨a, ?_⟩; rw [b]; exact h1
      · right; simp only at a; omega
    · simp only at h; rw [e] at h; cases h
    · simp only at h; rw [e] at h; cases h

theorem jNext_fit (fl : FloatOps) : Rel simFit (jNext fl) (jNext fl) := by
  rintro s s' ⟨h, hs⟩
  cases h
  cases h : jNext fl s with
  | ok a s1 =>
    refine ⟨rfl, rfl, ?_⟩
    have := jNext_ok_len h
    unfold Fits at *; omega
  | err e s1 =>
    refine .inr ⟨rfl, rfl, ?_⟩
    have := jNext_err_len h
    unfold Fits at *; omega
  | panic => trivial
  | oof => trivial

/-! ## The counter -/

theorem I32.add_fits {chk : Bool} {a d : Int} (h : -(2 ^ 31) ≤ a + d ∧ a + d < 2 ^ 31) : I32.add chk a d = pure (a + d) := if_pos h

theorem I32.wholeLoop_eq (fl : FloatOps) (chk : Bool) (n : Nat) : ∀ (k : Int) (s : PSt), 0 ≤ k →
    (1 ≤ k ∨ s.tok ≠ .blockClose ∧ s.tok ≠ .curlyClose) →
    k + (if s.tok = .blockOpen ∨ s.tok = .curlyOpen then 1 else 0) + s.cur.txt.length < 2 ^ 31 →
    I32.wholeLoop chk (jNext fl) n k s = NS.wholeLoop (jNext fl) n k s := by
  induction n with
  | zero => intros; rfl
  | succ n ih =>
    intro k s h0 h1 h2
    have go : ∀ b : Int, 0 ≤ b → b ≤ k + (if s.tok = .blockOpen ∨ s.tok = .curlyOpen then 1 else 0) →
        (jNext fl >>= fun _ => if b = 0 then pure () else I32.wholeLoop chk (jNext fl) n b : PM Unit) s =
        (jNext fl >>= fun _ => if b = 0 then pure () else NS.wholeLoop (jNext fl) n b : PM Unit) s := by
      intro b hb hb'
      rw [M.bind_def, M.bind_def]
      cases hn : jNext fl s with
      | ok u s' =>
        simp only
        by_cases hz : b = 0
        · rw [if_pos hz, if_pos hz]
        · rw [if_neg hz, if_neg hz]
          refine ih b s' hb (.inl (by omega)) ?_
          have hl := jNext_ok_len hn
          split at h2 <;> rename_i ho <;> simp only [ho, if_true, if_false] at hb' <;> split <;> rename_i ho'
          all_goals
            rcases hl with ⟨ht, hl⟩ | hl
            · first
              | (rw [ht] at ho'; simp at ho'; done)
              | omega
            · omega
      | _ => rfl
    have e1 : I32.wholeLoop chk (jNext fl) (n + 1) k s = (do
        let a ← if s.tok = .blockOpen ∨ s.tok = .curlyOpen then I32.add chk k 1 else pure k
        let b ← if s.tok = .blockClose ∨ s.tok = .curlyClose then I32.add chk a (-1) else pure a
        jNext fl
        if b = 0 then pure () else I32.wholeLoop chk (jNext fl) n b : PM Unit) s := rfl
    have e2 : NS.wholeLoop (jNext fl) (n + 1) k s = (
        let a := if s.tok = .blockOpen ∨ s.tok = .curlyOpen then k + 1 else k
        let b := if s.tok = .blockClose ∨ s.tok = .curlyClose then a - 1 else a
        jNext fl >>= fun _ => if b = 0 then pure () else NS.wholeLoop (jNext fl) n b : PM Unit) s := rfl
    rw [e1, e2]
    by_cases ho : s.tok = .blockOpen ∨ s.tok = .curlyOpen
    · have hc : ¬ (s.tok = .blockClose ∨ s.tok = .curlyClose) := by
        rcases ho with h | h <;> rw [h] <;> simp
      simp only [ho, hc, if_true, if_false] at h2 go ⊢
      rw [I32.add_fits (by omega)]
      exact go (k + 1) (by omega) (by omega)
    · simp only [ho, if_false] at h2 go ⊢
      by_cases hc : s.tok = .blockClose ∨ s.tok = .curlyClose
      · have hk : 1 ≤ k := by
          rcases h1 with h | ⟨h, h'⟩
          · exact h
          · rcases hc with hc | hc <;> contradiction
        simp only [hc, if_true]
        change (I32.add chk k (-1) >>= fun b => jNext fl >>= fun _ => if b = 0 then pure () else I32.wholeLoop chk (jNext fl) n b : PM Unit) s = _
        rw [I32.add_fits (by omega)]
        exact go (k - 1) (by omega) (by omega)
      · simp only [hc, if_false]
        exact go k h0 (by omega)

theorem I32.wholeField_eq (fl : FloatOps) (chk : Bool) (n : Nat) (s : PSt) (hs : Fits s) :
    I32.wholeField chk (jNext fl) n s = NS.wholeField (jNext fl) n s := by
  show (match s.tok with
    | .f64 _ | .i64 _ | .str | .u64 _ | .bool _ | .null => jNext fl
    | .blockOpen | .curlyOpen => I32.wholeLoop chk (jNext fl) n 0
    | _ => M.panic : PM Unit) s = (match s.tok with
    | .f64 _ | .i64 _ | .str | .u64 _ | .bool _ | .null => jNext fl
    | .blockOpen | .curlyOpen => NS.wholeLoop (jNext fl) n 0
    | _ => M.panic : PM Unit) s
  cases ht : s.tok with
  | blockOpen | curlyOpen =>
    exact I32.wholeLoop_eq fl chk n 0 s (by omega) (.inr (by rw [ht]; simp)) (by rw [ht]; simp; unfold Fits at hs; omega)
  | _ => rfl

theorem I32.wholeField_to (fl : FloatOps) (chk : Bool) (n : Nat) :
    Rel simFit (I32.wholeField chk (jNext fl) n) (NS.wholeField (jNext fl) n) := by
  rintro s s' ⟨h, hs⟩
  cases h
  rw [I32.wholeField_eq fl chk n s hs]
  exact Rel.wholeField (jNext_fit fl) trivial (Nat.le_refl n) s s ⟨rfl, hs⟩

theorem I32.wholeField_of (fl : FloatOps) (chk : Bool) (n : Nat) :
    Rel simFit (NS.wholeField (jNext fl) n) (I32.wholeField chk (jNext fl) n) := by
  rintro s s' ⟨h, hs⟩
  cases h
  rw [I32.wholeField_eq fl chk n s hs]
  exact Rel.wholeField (jNext_fit fl) trivial (Nat.le_refl n) s s ⟨rfl, hs⟩

/-! ## The readers that use it -/

namespace Rel
variable {S : Sim} {nx : PM Unit} (hn : Rel S nx nx)
include hn

theorem deJsonNamed_to (chk) (hw : ∀ n, Rel S (I32.wholeField chk nx n) (NS.wholeField nx n)) {n : Nat} {d e : Ty → PM Val} (cd) {fs : List Field}
    (h : ∀ f ∈ fs, Rel S (d f.ty) (e f.ty) ∧ ∀ t, f.ty = .option t → Rel S (d t) (e t)) :
    Rel S (I32.deJsonNamed chk nx n d cd fs) (NS.deJsonNamed nx n e cd fs) := by
  refine bind (expectTok hn _ _) fun _ => bind (whileIs (fun acc => ?_) (Nat.le_refl _) _) fun _ =>
    bind (expectTok hn _ _) fun _ => unwrapFields _ _ _
  refine look fun s s' hs => ?_
  rw [S.str hs]
  refine bind ?_ (fun _ => bind (eatComma hn _ _) fun _ => pure _) _ _ hs
  unfold I32.jMemberValue NS.jMemberValue
  split
  · exact pure _
  · cases hf : findField fs s.strbuf with
    | none => exact bind (nextColon hn) fun _ => bind (hw n) fun _ => pure _
    | some i =>
      have hi := (List.findIdx?_eq_some_iff_getElem.1 hf).1
      have hg : fs.getD i { name := [], ty := .unit } = fs[i] := by
        rw [List.getD_eq_getElem?_getD, List.getElem?_eq_getElem hi]; rfl
      have hm : fs[i] ∈ fs := List.getElem_mem _
      simp only [hg]
      exact bind (nextColon hn) fun _ => bind (deField (h _ hm).1 (h _ hm).2) fun _ => pure _

theorem deJsonEnum_to {chk : Bool} {n : Nat} {d e : Ty → PM Val} {vars : List Variant}
    (h : ∀ v ∈ vars, Rel S (I32.deJsonShape chk nx n d v.shape) (NS.deJsonShape nx n e v.shape)) :
    Rel S (I32.deJsonEnum chk nx n d vars) (NS.deJsonEnum nx n e vars) := by
  refine look fun s s' hs => ?_
  rw [S.tok hs]
  split
  · refine bind (expectTok hn _ _) (fun _ => bind (expectTok hn _ _) fun _ => bind (expectTok hn _ _) fun _ =>
      look fun s s' hs => ?_) _ _ hs
    rw [S.str hs]
    cases hf : findVariant vars false s.strbuf with
    | none => exact errEnum _ _ _ hs
    | some i =>
      have hi := (List.findIdx?_eq_some_iff_getElem.1 hf).1
      have hg : vars.getD i { name := [], shape := .unit } = vars[i] := by
        rw [List.getD_eq_getElem?_getD, List.getElem?_eq_getElem hi]; rfl
      have hm : vars[i] ∈ vars := List.getElem_mem _
      simp only [hg]
      exact bind (h _ hm) (fun _ => bind (expectTok hn _ _) fun _ => pure _) _ _ hs
  split
  · refine bind (expectTok hn _ _) (fun _ => look fun s s' hs => ?_) _ _ hs
    rw [S.str hs]
    cases findVariant vars true s.strbuf with
    | none => exact errEnum _ _ _ hs
    | some i => exact pure _ _ _ hs
  · exact errToken _ _ _ hs

theorem deJsonNamed_of (chk) (hw : ∀ n, Rel S (NS.wholeField nx n) (I32.wholeField chk nx n)) {n : Nat} {d e : Ty → PM Val} (cd) {fs : List Field}
    (h : ∀ f ∈ fs, Rel S (d f.ty) (e f.ty) ∧ ∀ t, f.ty = .option t → Rel S (d t) (e t)) :
    Rel S (NS.deJsonNamed nx n d cd fs) (I32.deJsonNamed chk nx n e cd fs) := by
  refine bind (expectTok hn _ _) fun _ => bind (whileIs (fun acc => ?_) (Nat.le_refl _) _) fun _ =>
    bind (expectTok hn _ _) fun _ => unwrapFields _ _ _
  refine look fun s s' hs => ?_
  rw [S.str hs]
  refine bind ?_ (fun _ => bind (eatComma hn _ _) fun _ => pure _) _ _ hs
  unfold I32.jMemberValue NS.jMemberValue
  split
  · exact pure _
  · cases hf : findField fs s.strbuf with
    | none => exact bind (nextColon hn) fun _ => bind (hw n) fun _ => pure _
    | some i =>
      have hi := (List.findIdx?_eq_some_iff_getElem.1 hf).1
      have hg : fs.getD i { name := [], ty := .unit } = fs[i] := by
        rw [List.getD_eq_getElem?_getD, List.getElem?_eq_getElem hi]; rfl
      have hm : fs[i] ∈ fs := List.getElem_mem _
      simp only [hg]
      exact bind (nextColon hn) fun _ => bind (deField (h _ hm).1 (h _ hm).2) fun _ => pure _

theorem deJsonEnum_of {chk : Bool} {n : Nat} {d e : Ty → PM Val} {vars : List Variant}
    (h : ∀ v ∈ vars, Rel S (NS.deJsonShape nx n d v.shape) (I32.deJsonShape chk nx n e v.shape)) :
    Rel S (NS.deJsonEnum nx n d vars) (I32.deJsonEnum chk nx n e vars) := by
  refine look fun s s' hs => ?_
  rw [S.tok hs]
  split
  · refine bind (expectTok hn _ _) (fun _ => bind (expectTok hn _ _) fun _ => bind (expectTok hn _ _) fun _ =>
      look fun s s' hs => ?_) _ _ hs
    rw [S.str hs]
    cases hf : findVariant vars false s.strbuf with
    | none => exact errEnum _ _ _ hs
    | some i =>
      have hi := (List.findIdx?_eq_some_iff_getElem.1 hf).1
      have hg : vars.getD i { name := [], shape := .unit } = vars[i] := by
        rw [List.getD_eq_getElem?_getD, List.getElem?_eq_getElem hi]; rfl
      have hm : vars[i] ∈ vars := List.getElem_mem _
      simp only [hg]
      exact bind (h _ hm) (fun _ => bind (expectTok hn _ _) fun _ => pure _) _ _ hs
  split
  · refine bind (expectTok hn _ _) (fun _ => look fun s s' hs => ?_) _ _ hs
    rw [S.str hs]
    cases findVariant vars true s.strbuf with
    | none => exact errEnum _ _ _ hs
    | some i => exact pure _ _ _ hs
  · exact errToken _ _ _ hs

end Rel

theorem deJson_to (env : Env) (fl : FloatOps) (chk : Bool) : ∀ (n : Nat) (t : Ty),
      Rel simFit (I32.deJson env fl chk n t) (NS.deJson env fl n t) := by
  intro n
  induction n with
  | zero => intro t; exact Rel.oof _
  | succ n ih' =>
    intro t
    cases t with
    | unit => exact Rel.bind (Rel.expectTok (jNext_fit fl) _ _) fun _ => Rel.pure _
    | bool => exact Rel.bool (jNext_fit fl)
    | int k => exact Rel.deInt (jNext_fit fl) k
    | f32 => exact Rel.deF32 (jNext_fit fl) fl
    | f64 => exact Rel.deF64 (jNext_fit fl) fl
    | str => exact Rel.bind (Rel.deStr (jNext_fit fl)) fun _ => Rel.pure _
    | dur => exact Rel.deDur (jNext_fit fl) trivial (Nat.le_refl _)
    | time =>
      refine Rel.look fun s s' hs => ?_
      rw [simFit.tok hs]
      split
      · exact Rel.bind (jNext_fit fl) (fun _ => Rel.epochAt trivial _) _ _ hs
      · exact Rel.bind (Rel.deDur (jNext_fit fl) trivial (Nat.le_refl _)) (fun _ => Rel.epochAt trivial _) _ _ hs
    | option t =>
      refine Rel.look fun s s' hs => ?_
      rw [simFit.tok hs]
      split
      · exact Rel.bind (jNext_fit fl) (fun _ => Rel.pure _) _ _ hs
      · exact Rel.bind (ih' t ) (fun _ => Rel.pure _) _ _ hs
    | vec t => exact Rel.deSeq (jNext_fit fl) (ih' t ) (Nat.le_refl _) _
    | linked t => exact Rel.deSeq (jNext_fit fl) (ih' t ) (Nat.le_refl _) _
    | hset t => exact Rel.deSeq (jNext_fit fl) (ih' t ) (Nat.le_refl _) _
    | bset t => exact Rel.deSeq (jNext_fit fl) (ih' t ) (Nat.le_refl _) _
    | array t len =>
      exact Rel.bind (Rel.expectTok (jNext_fit fl) _ _) fun _ =>
        Rel.bind (Rel.repeatM (Rel.thenEat (ih' t ) (Rel.eatComma (jNext_fit fl) _ _)) _) fun _ =>
          Rel.bind (Rel.expectTok (jNext_fit fl) _ _) fun _ => Rel.pure _
    | pair a b =>
      refine Rel.deTuple (Rel.expectTok (jNext_fit fl) _ _) (Rel.expectTok (jNext_fit fl) _ _) (Rel.eatComma (jNext_fit fl) _ _)
        (fun _ => eatComma_no_panic jNext_no_panic) fun u hu =>
        ih' u
    | triple a b c =>
      refine Rel.deTuple (Rel.expectTok (jNext_fit fl) _ _) (Rel.expectTok (jNext_fit fl) _ _) (Rel.eatComma (jNext_fit fl) _ _)
        (fun _ => eatComma_no_panic jNext_no_panic) fun u hu =>
        ih' u
    | quad a b c d =>
      refine Rel.deTuple (Rel.expectTok (jNext_fit fl) _ _) (Rel.expectTok (jNext_fit fl) _ _) (Rel.eatComma (jNext_fit fl) _ _)
        (fun _ => eatComma_no_panic jNext_no_panic) fun u hu =>
        ih' u
    | hmap k v =>
      exact Rel.deMap (jNext_fit fl) (ih' k ) (ih' v ) (Nat.le_refl _) _
    | bmap k v =>
      exact Rel.deMap (jNext_fit fl) (ih' k ) (ih' v ) (Nat.le_refl _) _
    | box t => exact Rel.bind (ih' t ) fun _ => Rel.pure _
    | named i =>
      simp only [I32.deJson, NS.deJson]
      cases hd : env.defs[i]? with
      | none => exact Rel.oof _
      | some d =>
        cases d with
        | struct fs cd nul =>
          exact Rel.bind (Rel.deJsonNamed_to (jNext_fit fl) chk (I32.wholeField_to fl chk) cd fun f _ =>
            ⟨ih' _, fun t _ => ih' _⟩) fun _ => Rel.pure _
        | tuple ts tr => exact Rel.deJsonTupleStruct (jNext_fit fl) tr fun u hu => ih' u
        | enum vars =>
          refine Rel.deJsonEnum_to (jNext_fit fl) fun v hv => ?_
          cases v.shape with
          | unit => exact Rel.pure _
          | tuple ts =>
            exact Rel.bind (Rel.expectTok (jNext_fit fl) _ _) fun _ => Rel.bind (Rel.deTysEat (Rel.eatComma (jNext_fit fl) _ _)
              fun u hu => ih' u) fun _ => Rel.bind (Rel.expectTok (jNext_fit fl) _ _) fun _ => Rel.pure _
          | named fs =>
            exact Rel.deJsonNamed_to (jNext_fit fl) chk (I32.wholeField_to fl chk) _ fun f _ => ⟨ih' _, fun t _ => ih' _⟩
    | proxied i =>
      simp only [I32.deJson, NS.deJson]
      cases hd : env.proxies[i]? with
      | none => exact Rel.oof _
      | some px => exact Rel.bind (ih' px.ty) fun _ => Rel.pure _

theorem deJson_of (env : Env) (fl : FloatOps) (chk : Bool) : ∀ (n : Nat) (t : Ty),
      Rel simFit (NS.deJson env fl n t) (I32.deJson env fl chk n t) := by
  intro n
  induction n with
  | zero => intro t; exact Rel.oof _
  | succ n ih' =>
    intro t
    cases t with
    | unit => exact Rel.bind (Rel.expectTok (jNext_fit fl) _ _) fun _ => Rel.pure _
    | bool => exact Rel.bool (jNext_fit fl)
    | int k => exact Rel.deInt (jNext_fit fl) k
    | f32 => exact Rel.deF32 (jNext_fit fl) fl
    | f64 => exact Rel.deF64 (jNext_fit fl) fl
    | str => exact Rel.bind (Rel.deStr (jNext_fit fl)) fun _ => Rel.pure _
    | dur => exact Rel.deDur (jNext_fit fl) trivial (Nat.le_refl _)
    | time =>
      refine Rel.look fun s s' hs => ?_
      rw [simFit.tok hs]
      split
      · exact Rel.bind (jNext_fit fl) (fun _ => Rel.epochAt trivial _) _ _ hs
      · exact Rel.bind (Rel.deDur (jNext_fit fl) trivial (Nat.le_refl _)) (fun _ => Rel.epochAt trivial _) _ _ hs
    | option t =>
      refine Rel.look fun s s' hs => ?_
      rw [simFit.tok hs]
      split
      · exact Rel.bind (jNext_fit fl) (fun _ => Rel.pure _) _ _ hs
      · exact Rel.bind (ih' t ) (fun _ => Rel.pure _) _ _ hs
    | vec t => exact Rel.deSeq (jNext_fit fl) (ih' t ) (Nat.le_refl _) _
    | linked t => exact Rel.deSeq (jNext_fit fl) (ih' t ) (Nat.le_refl _) _
    | hset t => exact Rel.deSeq (jNext_fit fl) (ih' t ) (Nat.le_refl _) _
    | bset t => exact Rel.deSeq (jNext_fit fl) (ih' t ) (Nat.le_refl _) _
    | array t len =>
      exact Rel.bind (Rel.expectTok (jNext_fit fl) _ _) fun _ =>
        Rel.bind (Rel.repeatM (Rel.thenEat (ih' t ) (Rel.eatComma (jNext_fit fl) _ _)) _) fun _ =>
          Rel.bind (Rel.expectTok (jNext_fit fl) _ _) fun _ => Rel.pure _
    | pair a b =>
      refine Rel.deTuple (Rel.expectTok (jNext_fit fl) _ _) (Rel.expectTok (jNext_fit fl) _ _) (Rel.eatComma (jNext_fit fl) _ _)
        (fun _ => eatComma_no_panic jNext_no_panic) fun u hu =>
        ih' u
    | triple a b c =>
      refine Rel.deTuple (Rel.expectTok (jNext_fit fl) _ _) (Rel.expectTok (jNext_fit fl) _ _) (Rel.eatComma (jNext_fit fl) _ _)
        (fun _ => eatComma_no_panic jNext_no_panic) fun u hu =>
        ih' u
    | quad a b c d =>
      refine Rel.deTuple (Rel.expectTok (jNext_fit fl) _ _) (Rel.expectTok (jNext_fit fl) _ _) (Rel.eatComma (jNext_fit fl) _ _)
        (fun _ => eatComma_no_panic jNext_no_panic) fun u hu =>
        ih' u
    | hmap k v =>
      exact Rel.deMap (jNext_fit fl) (ih' k ) (ih' v ) (Nat.le_refl _) _
    | bmap k v =>
      exact Rel.deMap (jNext_fit fl) (ih' k ) (ih' v ) (Nat.le_refl _) _
    | box t => exact Rel.bind (ih' t ) fun _ => Rel.pure _
    | named i =>
      simp only [I32.deJson, NS.deJson]
      cases hd : env.defs[i]? with
      | none => exact Rel.oof _
      | some d =>
        cases d with
        | struct fs cd nul =>
          exact Rel.bind (Rel.deJsonNamed_of (jNext_fit fl) chk (I32.wholeField_of fl chk) cd fun f _ =>
            ⟨ih' _, fun t _ => ih' _⟩) fun _ => Rel.pure _
        | tuple ts tr => exact Rel.deJsonTupleStruct (jNext_fit fl) tr fun u hu => ih' u
        | enum vars =>
          refine Rel.deJsonEnum_of (jNext_fit fl) fun v hv => ?_
          cases v.shape with
          | unit => exact Rel.pure _
          | tuple ts =>
            exact Rel.bind (Rel.expectTok (jNext_fit fl) _ _) fun _ => Rel.bind (Rel.deTysEat (Rel.eatComma (jNext_fit fl) _ _)
              fun u hu => ih' u) fun _ => Rel.bind (Rel.expectTok (jNext_fit fl) _ _) fun _ => Rel.pure _
          | named fs =>
            exact Rel.deJsonNamed_of (jNext_fit fl) chk (I32.wholeField_of fl chk) _ fun f _ => ⟨ih' _, fun t _ => ih' _⟩
    | proxied i =>
      simp only [I32.deJson, NS.deJson]
      cases hd : env.proxies[i]? with
      | none => exact Rel.oof _
      | some px => exact Rel.bind (ih' px.ty) fun _ => Rel.pure _

theorem deserializeJson_i32 (env : Env) (fl : FloatOps) (chk : Bool) (n : Nat) (t : Ty) (txt : List Char)
    (h : txt.length < 2 ^ 31 - 1) : I32.deserializeJson env fl chk n t txt = NS.deserializeJson env fl n t txt :=
  simFit_eq (s := initSt jcol txt) (Nat.lt_of_le_of_lt (by first | exact Nat.le_refl _ | simp [initSt]) h)
    (Rel.bind (jNext_fit fl) fun _ => deJson_to env fl chk n t)
    (Rel.bind (jNext_fit fl) fun _ => deJson_of env fl chk n t)

end NS
