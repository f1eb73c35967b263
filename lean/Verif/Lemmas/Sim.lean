import Verif.Lemmas.Monad
import Verif.Model.Json
/-!
# Simulation between two runs of a reader

The readers look at the state only through `tok`, `strbuf` and `identbuf`, change it only through
`next_tok` and by emptying `strbuf`, and report positions only through errors.  So two runs whose
`next_tok`s stay related stay related.  Used for: more fuel changes nothing, layout is irrelevant,
error positions, absence of panics.
-/
namespace NS

/-- A relation between states, one between errors, whether panics are allowed, and whether an error of the
first run is below every outcome of the second. -/
structure Sim where
  R : PSt → PSt → Prop
  E : PErr → PErr → Prop
  P : Prop
  X : Prop := False
  tok : ∀ {s s'}, R s s' → s'.tok = s.tok
  str : ∀ {s s'}, R s s' → s'.strbuf = s.strbuf
  ident : ∀ {s s'}, R s s' → s'.identbuf = s.identbuf
  setStr : ∀ {s s'} (b : List Char), R s s' → R { s with strbuf := b } { s' with strbuf := b }
  err : ∀ {s s'} (m : Reason), R s s' → E ⟨s.cur.line, s.cur.col, m⟩ ⟨s'.cur.line, s'.cur.col, m⟩

/-- Related outcomes; running out of fuel is below everything. -/
def OutRel (S : Sim) {α : Type} : Out PErr PSt α → Out PErr PSt α → Prop
  | .ok a s, .ok a' s' => a' = a ∧ S.R s s'
  | .err e s, .err e' s' => S.X ∨ S.E e e' ∧ S.R s s'
  | .err _ _, _ => S.X
  | .panic, .panic => S.P
  | .oof, _ => True
  | _, _ => False

theorem OutRel.ofX {S : Sim} (h : S.X) {α : Type} (e s) (o : Out PErr PSt α) : OutRel S (.err e s) o := by
  cases o with
  | err _ _ => exact .inl h
  | _ => exact h

/-- Related computations. -/
def Rel (S : Sim) {α : Type} (x y : PM α) : Prop := ∀ s s', S.R s s' → OutRel S (x s) (y s')

theorem failWith_no_panic {α : Type} (f : PSt → Reason) (s : PSt) : (failWith f : PM α) s ≠ .panic := by
  intro h; cases h

theorem eatComma_no_panic {nx : PM Unit} (h : ∀ s, nx s ≠ .panic) {t w} (s : PSt) : eatComma nx t w s ≠ .panic := by
  show (if s.tok = .comma then nx else if s.tok = t then Pure.pure () else errToken w : PM Unit) s ≠ _
  split
  · exact h s
  · split
    · intro h; cases h
    · exact failWith_no_panic _ _

theorem jTok_no_panic (fl : FloatOps) (s : PSt) : jTok fl s ≠ .panic := by
  unfold jTok
  dsimp only
  repeat' split
  all_goals (first | exact failWith_no_panic _ _ | (intro h; cases h; done))

theorem jNext_no_panic {fl : FloatOps} (s : PSt) : jNext fl s ≠ .panic := by
  unfold jNext
  split
  · exact jTok_no_panic _ _
  · exact failWith_no_panic _ _
  · intro h; cases h

namespace Rel
variable {S : Sim} {α β : Type}

theorem pure (a : α) : Rel S (Pure.pure a : PM α) (Pure.pure a) := fun _ _ h => ⟨rfl, h⟩
theorem oof (y : PM α) : Rel S M.oof y := fun _ _ _ => trivial
theorem panic (h : S.P) : Rel S (M.panic : PM α) M.panic := fun _ _ _ => h

theorem _root_.NS.OutRel.bind {x y : PM α} {f g : α → PM β} {s s' : PSt} (h : OutRel S (x s) (y s'))
    (hf : ∀ a, Rel S (f a) (g a)) : OutRel S ((x >>= f) s) ((y >>= g) s') := by
  rw [M.bind_def, M.bind_def]
  cases e : x s with
  | ok a s1 =>
    cases e' : y s' with
    | ok a' s1' =>
      rw [e, e'] at h
      obtain ⟨rfl, hr⟩ := h
      exact hf _ _ _ hr
    | _ => rw [e, e'] at h; exact h.elim
  | err _ _ =>
    cases e' : y s' with
    | err _ _ => rw [e, e'] at h; exact h
    | _ => rw [e, e'] at h; exact OutRel.ofX h _ _ _
  | panic =>
    cases e' : y s' with
    | panic => rw [e, e'] at h; exact h
    | _ => rw [e, e'] at h; exact h.elim
  | oof => trivial

theorem bind {x y : PM α} {f g : α → PM β} (h : Rel S x y) (hf : ∀ a, Rel S (f a) (g a)) :
    Rel S (x >>= f) (y >>= g) := fun _ _ hs => OutRel.bind (h _ _ hs) hf

/-- Looking at the state. -/
theorem look {f g : PSt → PM α} (h : ∀ s s', S.R s s' → OutRel S (f s s) (g s' s')) :
    Rel S (M.get >>= f) (M.get >>= g) := fun s s' hs => h s s' hs

theorem fail {f : PSt → Reason} (h : ∀ s s', S.R s s' → f s' = f s) :
    Rel S (failWith f : PM α) (failWith f) := by
  intro s s' hs
  refine .inr ⟨?_, hs⟩
  rw [h s s' hs]
  exact S.err _ hs

theorem errToken (w : String) : Rel S (errToken w : PM α) (NS.errToken w) :=
  fail fun _ _ h => by rw [S.tok h]
theorem errParse (w) : Rel S (errParse w : PM α) (NS.errParse w) := fail fun _ _ _ => rfl
theorem errRange (w) : Rel S (errRange w : PM α) (NS.errRange w) := fail fun _ _ _ => rfl
theorem errNf (w) : Rel S (errNf w : PM α) (NS.errNf w) := fail fun _ _ _ => rfl
theorem errEnum (w) : Rel S (errEnum w : PM α) (NS.errEnum w) := fail fun _ _ _ => rfl
theorem errExp (w) : Rel S (errExp w : PM α) (NS.errExp w) := fail fun _ _ _ => rfl

variable {nx : PM Unit} (hn : Rel S nx nx)
include hn

theorem expectTok (t w) : Rel S (expectTok nx t w) (expectTok nx t w) := by
  refine look fun s s' hs => ?_
  rw [S.tok hs]
  split
  · exact hn _ _ hs
  · exact errToken w _ _ hs

theorem eatComma (t w) : Rel S (eatComma nx t w) (eatComma nx t w) := by
  refine look fun s s' hs => ?_
  rw [S.tok hs]
  split
  · exact hn _ _ hs
  split
  · exact pure _ _ _ hs
  · exact errToken w _ _ hs

theorem nextColon : Rel S (nextColon nx) (nextColon nx) := bind hn fun _ => expectTok hn _ _

omit hn in
theorem u64Range (m) : Rel S (u64Range m) (u64Range m) := by
  refine look fun s s' hs => ?_
  rw [S.tok hs]
  cases s.tok with
  | u64 v =>
    simp only
    split
    · exact errRange _ _ _ hs
    · exact pure _ _ _ hs
  | _ => exact errToken _ _ _ hs

omit hn in
theorem i64Range (lo hi) : Rel S (i64Range lo hi) (i64Range lo hi) := by
  refine look fun s s' hs => ?_
  rw [S.tok hs]
  cases s.tok with
  | u64 v =>
    simp only
    split
    · exact errRange _ _ _ hs
    · exact pure _ _ _ hs
  | i64 v =>
    simp only
    split
    · exact errRange _ _ _ hs
    · exact pure _ _ _ hs
  | _ => exact errToken _ _ _ hs

omit hn in
theorem asF64 (fl) : Rel S (asF64 fl) (asF64 fl) := by
  refine look fun s s' hs => ?_
  rw [S.tok hs]
  cases s.tok with
  | u64 v => exact pure _ _ _ hs
  | i64 v => exact pure _ _ _ hs
  | f64 v => exact pure _ _ _ hs
  | _ => exact errToken _ _ _ hs

omit hn in
theorem asString : Rel S asString asString := by
  refine look fun s s' hs => ?_
  by_cases h : s.tok = .str
  · have h' : s'.tok = .str := (S.tok hs).trans h
    rw [if_pos h, if_pos h']
    show OutRel S (.ok s.strbuf { s with strbuf := [] }) (.ok s'.strbuf { s' with strbuf := [] })
    exact ⟨S.str hs, S.setStr _ hs⟩
  · have h' : ¬ s'.tok = .str := fun h' => h ((S.tok hs).symm.trans h')
    rw [if_neg h, if_neg h']
    exact errToken _ _ _ hs

theorem deInt (k) : Rel S (deInt nx k) (deInt nx k) := by
  unfold NS.deInt
  split
  · exact oof _
  split
  · exact bind (i64Range _ _) fun _ => bind hn fun _ => pure _
  · exact bind (u64Range _) fun _ => bind hn fun _ => pure _

theorem deF64 (fl) : Rel S (deF64 nx fl) (deF64 nx fl) := bind (asF64 fl) fun _ => bind hn fun _ => pure _
theorem deF32 (fl) : Rel S (deF32 nx fl) (deF32 nx fl) := bind (asF64 fl) fun _ => bind hn fun _ => pure _
theorem deStr : Rel S (deStr nx) (deStr nx) := bind asString fun _ => bind hn fun _ => pure _

omit hn in
theorem whileNot {c : Tok} {f g : α → PM α} (h : ∀ a, Rel S (f a) (g a)) {n m : Nat} (hnm : n ≤ m) (a : α) :
    Rel S (whileNot c f n a) (whileNot c g m a) := by
  induction n generalizing m a with
  | zero => exact oof _
  | succ n ih =>
    obtain ⟨m, rfl⟩ : ∃ k, m = k + 1 := ⟨m - 1, by omega⟩
    refine look fun s s' hs => ?_
    rw [S.tok hs]
    split
    · exact pure _ _ _ hs
    · exact bind (h a) (fun b => ih (by omega) b) _ _ hs

omit hn in
theorem whileIs {c : Tok} {f g : α → PM α} (h : ∀ a, Rel S (f a) (g a)) {n m : Nat} (hnm : n ≤ m) (a : α) :
    Rel S (whileIs c f n a) (whileIs c g m a) := by
  induction n generalizing m a with
  | zero => exact oof _
  | succ n ih =>
    obtain ⟨m, rfl⟩ : ∃ k, m = k + 1 := ⟨m - 1, by omega⟩
    refine look fun s s' hs => ?_
    rw [S.tok hs]
    split
    · exact bind (h a) (fun b => ih (by omega) b) _ _ hs
    · exact pure _ _ _ hs

theorem deSeq {x y : PM Val} (h : Rel S x y) {n m : Nat} (hnm : n ≤ m) (add) :
    Rel S (deSeq nx n x add) (deSeq nx m y add) :=
  bind (expectTok hn _ _) fun _ =>
    bind (whileNot (fun _ => bind h fun _ => bind (eatComma hn _ _) fun _ => pure _) hnm _) fun _ =>
      bind (expectTok hn _ _) fun _ => pure _

theorem deMap {x y x' y' : PM Val} (h : Rel S x y) (h' : Rel S x' y') {n m : Nat} (hnm : n ≤ m) (add) :
    Rel S (deMap nx n x x' add) (deMap nx m y y' add) :=
  bind (expectTok hn _ _) fun _ =>
    bind (whileNot (fun _ => bind h fun _ => bind (expectTok hn _ _) fun _ => bind h' fun _ =>
      bind (eatComma hn _ _) fun _ => pure _) hnm _) fun _ =>
      bind (expectTok hn _ _) fun _ => pure _

omit hn in
theorem thenEat {x y : PM Val} {e : PM Unit} (h : Rel S x y) (he : Rel S e e) :
    Rel S (thenEat x e) (thenEat y e) := bind h fun _ => bind he fun _ => pure _

omit hn in
theorem commaAfter {x y : PM Val} {e : PM Unit} (h : Rel S x y) (he : Rel S e e) (hX : S.X → ∀ s, e s ≠ .panic) :
    Rel S (commaAfter x e) (commaAfter y e) := by
  intro s s' hs
  have h1 := h s s' hs
  unfold NS.commaAfter
  cases ex : x s with
  | ok a s1 =>
    cases ey : y s' with
    | ok a' s1' =>
      rw [ex, ey] at h1
      obtain ⟨rfl, hr⟩ := h1
      exact bind he (fun _ => pure _) _ _ hr
    | _ => rw [ex, ey] at h1; exact h1.elim
  | err e1 s1 =>
    rw [ex] at h1
    have hx : S.X → OutRel S (match e s1 with
        | .ok _ s2 => .err e1 s2
        | .err e2 s2 => .err e2 s2
        | .panic => .panic
        | .oof => .oof) (match y s' with
      | .ok a s1' => (e >>= fun _ => Pure.pure a) s1'
      | .err e1' s1' => (match e s1' with
        | .ok _ s2 => .err e1' s2
        | .err e2 s2 => .err e2 s2
        | .panic => .panic
        | .oof => .oof)
      | .panic => .panic
      | .oof => .oof) := by
      intro hx
      cases ee : e s1 with
      | ok a s2 => exact OutRel.ofX hx _ _ _
      | err a s2 => exact OutRel.ofX hx _ _ _
      | panic => exact absurd ee (hX hx s1)
      | oof => trivial
    cases ey : y s' with
    | err e1' s1' =>
      rw [ey] at h1 hx
      rcases h1 with h1 | ⟨h1, hr⟩
      · exact hx h1
      have h2 := he _ _ hr
      simp only
      cases ee : e s1 with
      | ok a s2 =>
        cases ee' : e s1' with
        | ok a' s2' => rw [ee, ee'] at h2; exact .inr ⟨h1, h2.2⟩
        | _ => rw [ee, ee'] at h2; exact h2.elim
      | err a s2 =>
        cases ee' : e s1' with
        | err a' s2' => rw [ee, ee'] at h2; exact h2
        | _ => rw [ee, ee'] at h2; exact OutRel.ofX h2 _ _ _
      | panic =>
        cases ee' : e s1' with
        | panic => rw [ee, ee'] at h2; exact h2
        | _ => rw [ee, ee'] at h2; exact h2.elim
      | oof => trivial
    | _ => rw [ey] at h1 hx; exact hx h1
  | panic =>
    cases ey : y s' with
    | panic => rw [ex, ey] at h1; exact h1
    | _ => rw [ex, ey] at h1; exact h1.elim
  | oof => trivial

theorem durValue (acc key) : Rel S (durValue nx acc key) (durValue nx acc key) := by
  unfold NS.durValue
  split
  · split
    · exact errParse _
    · exact bind (expectTok hn _ _) fun _ => bind (u64Range _) fun _ => bind hn fun _ => pure _
  split
  · split
    · exact errParse _
    · exact bind (expectTok hn _ _) fun _ => bind (u64Range _) fun _ => bind hn fun _ => pure _
  · exact errParse _

theorem deDur (hP : S.P) {n m : Nat} (hnm : n ≤ m) : Rel S (deDur nx n) (deDur nx m) := by
  refine bind (expectTok hn _ _) fun _ =>
    bind (whileNot (fun _ => bind (deStr hn) fun _ => bind (durValue hn _ _) fun _ =>
      bind (eatComma hn _ _) fun _ => pure _) hnm _) fun acc => bind (expectTok hn _ _) fun _ => ?_
  cases acc.1 with
  | none => exact errParse _
  | some secs =>
    simp only
    split
    · exact errRange _
    · intro s s' hs
      unfold durNewP
      split
      · exact ⟨rfl, hs⟩
      split
      · exact ⟨rfl, hs⟩
      · exact hP

omit hn in
theorem epochAt (hP : S.P) (v) : Rel S (epochAt v) (epochAt v) := by
  intro s s' hs
  cases v with
  | dur a b =>
    simp only [NS.epochAt]
    split
    · exact ⟨rfl, hs⟩
    · exact hP
  | _ => exact ⟨rfl, hs⟩

omit hn in
theorem repeatM {x y : PM α} (h : Rel S x y) (n : Nat) : Rel S (repeatM x n) (repeatM y n) := by
  induction n with
  | zero => exact pure _
  | succ n ih => exact bind h fun _ => bind ih fun _ => pure _

omit hn in
theorem unwrapFields (cd fs acc) : Rel S (unwrapFields cd fs acc) (unwrapFields cd fs acc) := by
  induction fs generalizing acc with
  | nil => cases acc <;> exact pure _
  | cons f fs ih =>
    cases acc with
    | nil => exact pure _
    | cons o os =>
      simp only [NS.unwrapFields]
      cases (if f.skip = true then none else o) with
      | some v => exact bind (pure _) fun _ => bind (ih os) fun _ => pure _
      | none =>
        simp only
        split
        · exact bind (pure _) fun _ => bind (ih os) fun _ => pure _
        · exact bind (errNf _) fun _ => bind (ih os) fun _ => pure _

section
variable {f g : Ty → PM Val} {ts : List Ty}
omit hn

theorem deTysEat {e : PM Unit} (he : Rel S e e) (h : ∀ t ∈ ts, Rel S (f t) (g t)) :
    Rel S (deTysEat f e ts) (deTysEat g e ts) := by
  induction ts with
  | nil => exact pure _
  | cons t ts ih =>
    exact bind (thenEat (h t (by simp)) he) fun _ => bind (ih fun u hu => h u (by simp [hu])) fun _ => pure _

theorem deTuple {o c e : PM Unit} (ho : Rel S o o) (hc : Rel S c c) (he : Rel S e e) (hX : S.X → ∀ s, e s ≠ .panic)
    (h : ∀ t ∈ ts, Rel S (f t) (g t)) : Rel S (deTuple o c e f ts) (deTuple o c e g ts) := by
  refine bind ho fun _ => bind ?_ fun _ => bind hc fun _ => pure _
  induction ts with
  | nil => exact pure _
  | cons t ts ih =>
    exact bind (commaAfter (h t (by simp)) he hX) fun _ => bind (ih fun u hu => h u (by simp [hu])) fun _ => pure _
end

theorem wholeLoop {n m : Nat} (hnm : n ≤ m) (k : Int) : Rel S (wholeLoop nx n k) (wholeLoop nx m k) := by
  induction n generalizing m k with
  | zero => exact oof _
  | succ n ih =>
    obtain ⟨m, rfl⟩ : ∃ k, m = k + 1 := ⟨m - 1, by omega⟩
    refine look fun s s' hs => ?_
    simp only [S.tok hs]
    generalize (if s.tok = .blockClose ∨ s.tok = .curlyClose then
      (if s.tok = .blockOpen ∨ s.tok = .curlyOpen then k + 1 else k) - 1
      else (if s.tok = .blockOpen ∨ s.tok = .curlyOpen then k + 1 else k)) = b
    refine bind hn (fun _ => ?_) _ _ hs
    by_cases hb : b = 0
    · rw [if_pos hb, if_pos hb]; exact pure _
    · rw [if_neg hb, if_neg hb]; exact ih (by omega) _

theorem wholeField (hP : S.P) {n m : Nat} (hnm : n ≤ m) : Rel S (wholeField nx n) (wholeField nx m) := by
  refine look fun s s' hs => ?_
  rw [S.tok hs]
  cases s.tok with
  | f64 _ | i64 _ | u64 _ | bool _ => exact hn _ _ hs
  | str | null => exact hn _ _ hs
  | blockOpen | curlyOpen => exact wholeLoop hn hnm 0 _ _ hs
  | _ => exact hP

omit hn in
theorem deField {d e : Ty → PM Val} {f : Field} (h : Rel S (d f.ty) (e f.ty))
    (h' : ∀ t, f.ty = .option t → Rel S (d t) (e t)) : Rel S (deField d f) (deField e f) := by
  unfold NS.deField
  cases f.optProxy with
  | false => exact h
  | true =>
    cases hty : f.ty with
    | option t => exact bind (h' t hty) fun _ => pure _
    | _ => simp only; rw [← hty]; exact h

theorem deJsonNamed (hP : S.P) {n m : Nat} (hnm : n ≤ m) {d e : Ty → PM Val} (cd) {fs : List Field}
    (h : ∀ f ∈ fs, Rel S (d f.ty) (e f.ty) ∧ ∀ t, f.ty = .option t → Rel S (d t) (e t)) :
    Rel S (deJsonNamed nx n d cd fs) (deJsonNamed nx m e cd fs) := by
  refine bind (expectTok hn _ _) fun _ => bind (whileIs (fun acc => ?_) hnm _) fun _ =>
    bind (expectTok hn _ _) fun _ => unwrapFields _ _ _
  refine look fun s s' hs => ?_
  rw [S.str hs]
  refine bind ?_ (fun _ => bind (eatComma hn _ _) fun _ => pure _) _ _ hs
  unfold jMemberValue
  split
  · exact pure _
  · cases hf : findField fs s.strbuf with
    | none => exact bind (nextColon hn) fun _ => bind (wholeField hn hP hnm) fun _ => pure _
    | some i =>
      have hi := (List.findIdx?_eq_some_iff_getElem.1 hf).1
      have hg : fs.getD i { name := [], ty := .unit } = fs[i] := by
        rw [List.getD_eq_getElem?_getD, List.getElem?_eq_getElem hi]; rfl
      have hm : fs[i] ∈ fs := List.getElem_mem _
      simp only [hg]
      exact bind (nextColon hn) fun _ => bind (deField (h _ hm).1 (h _ hm).2) fun _ => pure _

theorem deJsonTupleStruct {d e : Ty → PM Val} {ts : List Ty} (tr) (h : ∀ t ∈ ts, Rel S (d t) (e t)) :
    Rel S (deJsonTupleStruct nx d ts tr) (deJsonTupleStruct nx e ts tr) := by
  match ts, tr, h with
  | [], _, _ => exact bind (expectTok hn _ _) fun _ => bind (expectTok hn _ _) fun _ => pure _
  | [t], true, h => exact bind (h t (by simp)) fun _ => pure _
  | [t], false, h =>
    exact bind (expectTok hn _ _) fun _ => bind (h t (by simp)) fun _ => bind (expectTok hn _ _) fun _ => pure _
  | t :: t' :: ts, tr, h =>
    have : ∀ d, NS.deJsonTupleStruct nx d (t :: t' :: ts) tr = (do
        blockOpen nx
        let vs ← NS.deTysEat d (eatCommaBlock nx) (t :: t' :: ts)
        blockClose nx
        Pure.pure (.struct vs)) := by intro d; cases tr <;> rfl
    rw [this, this]
    exact bind (expectTok hn _ _) fun _ => bind (deTysEat (eatComma hn _ _) h) fun _ =>
      bind (expectTok hn _ _) fun _ => pure _

theorem deJsonEnum {n m : Nat} {d e : Ty → PM Val} {vars : List Variant}
    (h : ∀ v ∈ vars, Rel S (deJsonShape nx n d v.shape) (deJsonShape nx m e v.shape)) :
    Rel S (deJsonEnum nx n d vars) (deJsonEnum nx m e vars) := by
  refine look fun s s' hs => ?_
  rw [S.tok hs]
  split
  · refine bind (expectTok hn _ _) (fun _ => bind (expectTok hn _ _) fun _ => bind (expectTok hn _ _) fun _ =>
      look fun s s' hs => ?_) _ _ hs
    rw [S.str hs]
    cases hf : findVariant vars false s.strbuf with
    | none => exact errEnum _ _ _ hs
    | some i =>
      have hi := (List.findIdx?_eq_some_iff_getElem.1 hf).1
      have hg : vars.getD i { name := [], shape := .unit } = vars[i] := by
        rw [List.getD_eq_getElem?_getD, List.getElem?_eq_getElem hi]; rfl
      have hm : vars[i] ∈ vars := List.getElem_mem _
      simp only [hg]
      exact bind (h _ hm) (fun _ => bind (expectTok hn _ _) fun _ => pure _) _ _ hs
  split
  · refine bind (expectTok hn _ _) (fun _ => look fun s s' hs => ?_) _ _ hs
    rw [S.str hs]
    cases findVariant vars true s.strbuf with
    | none => exact errEnum _ _ _ hs
    | some i => exact pure _ _ _ hs
  · exact errToken _ _ _ hs

theorem bool : Rel S (do
      let st ← M.get
      match st.tok with
      | .bool b => do
        nx
        Pure.pure (Val.bool b)
      | _ => NS.errToken "boolean") (do
      let st ← M.get
      match st.tok with
      | .bool b => do
        nx
        Pure.pure (Val.bool b)
      | _ => NS.errToken "boolean") := by
  refine look fun s s' hs => ?_
  rw [S.tok hs]
  cases s.tok with
  | bool b => exact bind hn (fun _ => pure _) _ _ hs
  | _ => exact errToken _ _ _ hs

end Rel

/-- Types and definitions whose JSON readers contain no `panic!`: no `Duration`, no `SystemTime`
and no named-field struct or variant (see `whole_field`). -/
def jCalmTy : Ty → Bool
  | .dur | .time => false
  | .option t | .vec t | .linked t | .hset t | .bset t | .array t _ | .box t => jCalmTy t
  | .pair a b | .hmap a b | .bmap a b => jCalmTy a && jCalmTy b
  | .triple a b c => jCalmTy a && jCalmTy b && jCalmTy c
  | .quad a b c d => jCalmTy a && jCalmTy b && jCalmTy c && jCalmTy d
  | _ => true

/-- See `jCalmTy`. -/
def jCalmDef : Def → Bool
  | .struct _ _ _ => false
  | .tuple ts _ => ts.all jCalmTy
  | .enum vs => vs.all fun v =>
    match v.shape with
    | .unit => true
    | .tuple ts => ts.all jCalmTy
    | .named _ => false

/-- See `jCalmTy`. -/
def jCalmEnv (env : Env) : Prop :=
  (∀ d ∈ env.defs, jCalmDef d = true) ∧ ∀ p ∈ env.proxies, jCalmTy p.ty = true

theorem deJson_rel {S : Sim} (env : Env) (fl : FloatOps) (hn : Rel S (jNext fl) (jNext fl)) :
    ∀ (n m : Nat) (t : Ty), n ≤ m → (S.P ∨ (jCalmEnv env ∧ jCalmTy t = true)) →
      Rel S (deJson env fl n t) (deJson env fl m t) := by
  intro n
  induction n with
  | zero => intro m t _ _; exact Rel.oof _
  | succ n ih =>
    intro m t hnm hP
    obtain ⟨m, rfl⟩ : ∃ k, m = k + 1 := ⟨m - 1, by omega⟩
    have hle : n ≤ m := by omega
    have ih' : ∀ t, (S.P ∨ (jCalmEnv env ∧ jCalmTy t = true)) →
      Rel S (deJson env fl n t) (deJson env fl m t) := fun t => ih m t hle
    have hp : ∀ {u}, (jCalmTy t = true → jCalmTy u = true) → (S.P ∨ (jCalmEnv env ∧ jCalmTy u = true)) :=
      fun h => hP.imp id fun h' => ⟨h'.1, h h'.2⟩
    cases t with
    | unit => exact Rel.bind (Rel.expectTok hn _ _) fun _ => Rel.pure _
    | bool => exact Rel.bool hn
    | int k => exact Rel.deInt hn k
    | f32 => exact Rel.deF32 hn fl
    | f64 => exact Rel.deF64 hn fl
    | str => exact Rel.bind (Rel.deStr hn) fun _ => Rel.pure _
    | dur => exact Rel.deDur hn (hP.resolve_right (by simp [jCalmTy])) hle
    | time =>
      have hP := hP.resolve_right (by simp [jCalmTy])
      refine Rel.look fun s s' hs => ?_
      rw [S.tok hs]
      split
      · exact Rel.bind hn (fun _ => Rel.epochAt hP _) _ _ hs
      · exact Rel.bind (Rel.deDur hn hP hle) (fun _ => Rel.epochAt hP _) _ _ hs
    | option t =>
      refine Rel.look fun s s' hs => ?_
      rw [S.tok hs]
      split
      · exact Rel.bind hn (fun _ => Rel.pure _) _ _ hs
      · exact Rel.bind (ih' t (hp (by simp [jCalmTy]))) (fun _ => Rel.pure _) _ _ hs
    | vec t => exact Rel.deSeq hn (ih' t (hp (by simp [jCalmTy]))) hle _
    | linked t => exact Rel.deSeq hn (ih' t (hp (by simp [jCalmTy]))) hle _
    | hset t => exact Rel.deSeq hn (ih' t (hp (by simp [jCalmTy]))) hle _
    | bset t => exact Rel.deSeq hn (ih' t (hp (by simp [jCalmTy]))) hle _
    | array t len =>
      exact Rel.bind (Rel.expectTok hn _ _) fun _ =>
        Rel.bind (Rel.repeatM (Rel.thenEat (ih' t (hp (by simp [jCalmTy]))) (Rel.eatComma hn _ _)) _) fun _ =>
          Rel.bind (Rel.expectTok hn _ _) fun _ => Rel.pure _
    | pair a b =>
      refine Rel.deTuple (Rel.expectTok hn _ _) (Rel.expectTok hn _ _) (Rel.eatComma hn _ _)
        (fun _ => eatComma_no_panic jNext_no_panic) fun u hu =>
        ih' u (hp fun h => ?_)
      simp [jCalmTy] at h
      simp only [List.mem_cons, List.not_mem_nil, or_false] at hu
      rcases hu with rfl | rfl <;> simp [h]
    | triple a b c =>
      refine Rel.deTuple (Rel.expectTok hn _ _) (Rel.expectTok hn _ _) (Rel.eatComma hn _ _)
        (fun _ => eatComma_no_panic jNext_no_panic) fun u hu =>
        ih' u (hp fun h => ?_)
      simp [jCalmTy] at h
      simp only [List.mem_cons, List.not_mem_nil, or_false] at hu
      rcases hu with rfl | rfl | rfl <;> simp [h]
    | quad a b c d =>
      refine Rel.deTuple (Rel.expectTok hn _ _) (Rel.expectTok hn _ _) (Rel.eatComma hn _ _)
        (fun _ => eatComma_no_panic jNext_no_panic) fun u hu =>
        ih' u (hp fun h => ?_)
      simp [jCalmTy] at h
      simp only [List.mem_cons, List.not_mem_nil, or_false] at hu
      rcases hu with rfl | rfl | rfl | rfl <;> simp [h]
    | hmap k v =>
      exact Rel.deMap hn (ih' k (hp (by simp +contextual [jCalmTy]))) (ih' v (hp (by simp +contextual [jCalmTy]))) hle _
    | bmap k v =>
      exact Rel.deMap hn (ih' k (hp (by simp +contextual [jCalmTy]))) (ih' v (hp (by simp +contextual [jCalmTy]))) hle _
    | box t => exact Rel.bind (ih' t (hp (by simp [jCalmTy]))) fun _ => Rel.pure _
    | named i =>
      simp only [deJson]
      cases hd : env.defs[i]? with
      | none => exact Rel.oof _
      | some d =>
        have hcalm : S.P ∨ (jCalmEnv env ∧ jCalmDef d = true) :=
          hP.imp id fun h => ⟨h.1, h.1.1 d (List.mem_of_getElem? hd)⟩
        cases d with
        | struct fs cd nul =>
          have hP := hcalm.resolve_right (by simp [jCalmDef])
          exact Rel.bind (Rel.deJsonNamed hn hP hle cd fun f _ =>
            ⟨ih' _ (.inl hP), fun t _ => ih' _ (.inl hP)⟩) fun _ => Rel.pure _
        | tuple ts tr =>
          refine Rel.deJsonTupleStruct hn tr fun u hu => ih' u ?_
          refine hcalm.imp id fun h => ⟨h.1, ?_⟩
          have := h.2
          simp only [jCalmDef, List.all_eq_true] at this
          exact this u hu
        | enum vars =>
          refine Rel.deJsonEnum hn fun v hv => ?_
          have hv' : S.P ∨ (jCalmEnv env ∧ (match v.shape with
              | .unit => true
              | .tuple ts => ts.all jCalmTy
              | .named _ => false) = true) := by
            refine hcalm.imp id fun h => ⟨h.1, ?_⟩
            have := h.2
            simp only [jCalmDef, List.all_eq_true] at this
            exact this v hv
          cases hsh : v.shape with
          | unit => exact Rel.pure _
          | tuple ts =>
            rw [hsh] at hv'
            refine Rel.bind (Rel.expectTok hn _ _) fun _ => Rel.bind (Rel.deTysEat (Rel.eatComma hn _ _)
              fun u hu => ih' u ?_) fun _ => Rel.bind (Rel.expectTok hn _ _) fun _ => Rel.pure _
            exact hv'.imp id fun h => ⟨h.1, List.all_eq_true.1 h.2 u hu⟩
          | named fs =>
            rw [hsh] at hv'
            have hP := hv'.resolve_right (by simp)
            exact Rel.deJsonNamed hn hP hle _ fun f _ => ⟨ih' _ (.inl hP), fun t _ => ih' _ (.inl hP)⟩
    | proxied i =>
      simp only [deJson]
      cases hd : env.proxies[i]? with
      | none => exact Rel.oof _
      | some px =>
        refine Rel.bind (ih' px.ty ?_) fun _ => Rel.pure _
        exact hP.imp id fun h => ⟨h.1, h.1.2 px (List.mem_of_getElem? hd)⟩

/-! ## More fuel changes nothing -/

/-- Identity on states and errors. -/
def simEq : Sim where
  R := Eq
  E := Eq
  P := True
  tok h := by rw [h]
  str h := by rw [h]
  ident h := by rw [h]
  setStr _ h := by rw [h]
  err _ h := by rw [h]

theorem OutRel.eq_of_ne_oof {α : Type} {x y : Out PErr PSt α} (h : OutRel simEq x y) (hx : x ≠ .oof) : y = x := by
  cases x <;> cases y <;> simp_all [OutRel, simEq]

theorem rel_refl {α : Type} (x : PM α) : Rel simEq x x := by
  rintro s _ rfl
  cases x s <;> simp [OutRel, simEq]

theorem deJson_mono (env : Env) (fl : FloatOps) {n m : Nat} (h : n ≤ m) (t : Ty) (s : PSt)
    (hx : deJson env fl n t s ≠ .oof) : deJson env fl m t s = deJson env fl n t s :=
  (deJson_rel env fl (rel_refl _) n m t h (.inl trivial) s s rfl).eq_of_ne_oof hx

theorem deserializeJson_mono (env : Env) (fl : FloatOps) {n m : Nat} (h : n ≤ m) (t : Ty) (inp : List Char)
    (hx : deserializeJson env fl n t inp ≠ .oof) :
    deserializeJson env fl m t inp = deserializeJson env fl n t inp :=
  (Rel.bind (rel_refl (jNext fl)) (fun _ => deJson_rel env fl (rel_refl _) n m t h (.inl trivial))
    _ _ rfl).eq_of_ne_oof hx

end NS
