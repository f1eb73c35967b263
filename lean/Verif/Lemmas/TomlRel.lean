import Verif.Lemmas.TomlParse
import Verif.Lemmas.CurRel
import Verif.Lemmas.JsonPos
/-!
# Two runs of the TOML parser

Runs from related cursors stay related: used for fuel, layout and positions.
-/
namespace NS

/-- A relation between cursors and one between errors. -/
structure TSim (o : TomlOps) where
  R : Cur → Cur → Prop
  E : TErr → TErr → Prop

/-- Related outcomes; running out of fuel is below everything. -/
def TSim.Out {o : TomlOps} (S : TSim o) {α : Type} : NS.Out TErr Cur α → NS.Out TErr Cur α → Prop
  | .ok a s, .ok a' s' => a' = a ∧ S.R s s'
  | .err e s, .err e' s' => S.E e e' ∧ S.R s s'
  | .panic, .panic => True
  | .oof, _ => True
  | _, _ => False

/-- Related computations. -/
def TSim.Rel {o : TomlOps} (S : TSim o) {α : Type} (x y : TM α) : Prop := ∀ c c', S.R c c' → S.Out (x c) (y c')

/-- What is needed of a relation. -/
structure TSim.Good {o : TomlOps} (S : TSim o) : Prop where
  next : S.Rel (tNext o) (tNext o)
  err : ∀ {c c'} m, S.R c c' → S.E ⟨m, c.line, c.col⟩ ⟨m, c'.line, c'.col⟩

namespace TSim
variable {o : TomlOps} {S : TSim o}

theorem Rel.pure {α : Type} {a : α} : S.Rel (Pure.pure a : TM α) (Pure.pure a) := fun _ _ h => ⟨rfl, h⟩

theorem Rel.oof {α : Type} {x : TM α} : S.Rel M.oof x := fun _ _ _ => trivial

theorem Rel.bind {α β : Type} {x y : TM α} {f g : α → TM β} (h : S.Rel x y) (hf : ∀ a, S.Rel (f a) (g a)) :
    S.Rel (x >>= f) (y >>= g) := by
  intro c c' hc
  have := h c c' hc
  show S.Out (M.bind x f c) (M.bind y g c')
  unfold M.bind
  cases hx : x c <;> cases hy : y c' <;> rw [hx, hy] at this
  all_goals first | trivial | exact this.elim | exact this | skip
  · obtain ⟨e, h⟩ := this
    subst e
    exact hf _ _ _ h

theorem Rel.ite {α : Type} {p : Prop} [Decidable p] {x y x' y' : TM α} (h : S.Rel x y) (h' : S.Rel x' y') :
    S.Rel (if p then x else x') (if p then y else y') := by
  split
  · exact h
  · exact h'

theorem Good.token (G : S.Good) {α : Type} (t : TTok) : S.Rel (tErrToken t : TM α) (tErrToken t) :=
  fun _ _ h => ⟨G.err _ h, h⟩

theorem Rel.orPanic {α : Type} {x : Option α} : S.Rel (orPanic x) (orPanic x) := by
  intro c c' h
  cases x with
  | none => trivial
  | some a => exact ⟨rfl, h⟩

theorem Good.vals (G : S.Good) : ∀ n m, n ≤ m → (∀ t, S.Rel (tVal o n t) (tVal o m t)) ∧
    ∀ vs, S.Rel (tVals o n vs) (tVals o m vs) := by
  intro n
  induction n with
  | zero => intro m _; exact ⟨fun _ => by simpa [tVal] using Rel.oof, fun _ => by simpa [tVals] using Rel.oof⟩
  | succ n ih =>
    intro m hm
    obtain ⟨m, rfl⟩ : ∃ k, m = k + 1 := ⟨m - 1, by omega⟩
    obtain ⟨h1, h2⟩ := ih m (by omega)
    refine ⟨fun t => ?_, fun vs => ?_⟩
    · cases t <;> simp only [tVal] <;> first | exact Rel.pure | exact G.token _ | exact Rel.bind (h2 []) fun _ => Rel.pure
    · simp only [tVals]
      refine Rel.bind G.next fun t => Rel.ite Rel.pure (Rel.ite (Rel.bind (h1 t) fun v => h2 _) (h2 _))

theorem Good.expect (G : S.Good) (t : TTok) : S.Rel (tExpect o t) (tExpect o t) :=
  Rel.bind G.next fun _ => Rel.ite (G.token _) Rel.pure

theorem Good.header (G : S.Good) (u : NS.TOut) : S.Rel (tHeader o u) (tHeader o u) := by
  refine Rel.bind G.next fun t => ?_
  cases t <;> simp only
  case str => exact Rel.bind (G.expect _) fun _ => Rel.pure
  case ident => exact Rel.bind (G.expect _) fun _ => Rel.pure
  case blockOpen =>
    exact Rel.bind G.next fun t => Rel.ite (Rel.bind (G.expect _) fun _ => Rel.bind (G.expect _) fun _ =>
      Rel.bind Rel.orPanic fun _ => Rel.pure) (G.token _)
  all_goals exact G.token _

theorem Good.line (G : S.Good) {n m : Nat} (h : n ≤ m) (u : NS.TOut) : S.Rel (tLine o n u) (tLine o m u) := by
  refine Rel.bind G.next fun t => Rel.ite Rel.pure (Rel.ite (Rel.bind (G.header u) fun _ => Rel.pure)
    (Rel.ite (Rel.bind ?_ fun _ => Rel.pure) (G.token _)))
  exact Rel.bind (G.expect _) fun _ => Rel.bind G.next fun t => Rel.bind ((G.vals n m h).1 t) fun v => Rel.orPanic

theorem Good.loop (G : S.Good) : ∀ {n m : Nat}, n ≤ m → ∀ u, S.Rel (tLoop o n u) (tLoop o m u) := by
  intro n
  induction n with
  | zero => intro m _ u; simpa [tLoop] using Rel.oof
  | succ n ih =>
    intro m hm u
    obtain ⟨m, rfl⟩ : ∃ k, m = k + 1 := ⟨m - 1, by omega⟩
    simp only [tLoop]
    refine Rel.bind (G.line (by omega) u) fun r => ?_
    cases r with
    | none => exact Rel.pure
    | some u => exact ih (by omega) u

end TSim

/-! ## More fuel changes nothing -/

/-- Equality. -/
def eqSim (o : TomlOps) : TSim o where
  R c c' := c' = c
  E e e' := e' = e

theorem TSim.out_refl {o : TomlOps} {α : Type} (x : NS.Out TErr Cur α) : (eqSim o).Out x x := by
  cases x <;> first | trivial | exact ⟨rfl, rfl⟩

theorem eqSim_good (o : TomlOps) : (eqSim o).Good where
  next := by rintro c c' rfl; exact TSim.out_refl _
  err := by rintro c c' m rfl; rfl

theorem eqSim_eq {o : TomlOps} {α : Type} {x y : Out TErr Cur α} (h : (eqSim o).Out x y) (hx : x ≠ .oof) : y = x := by
  cases x <;> cases y <;> simp_all [TSim.Out, eqSim]

/-- Once the parser has stopped, more fuel gives the same outcome. -/
theorem parseToml_mono {o : TomlOps} {n m : Nat} {txt : List Char} (h : n ≤ m) (hx : parseToml o n txt ≠ .oof) :
    parseToml o m txt = parseToml o n txt :=
  eqSim_eq ((eqSim_good o).loop h _ _ _ rfl) hx

/-! ## The lexer -/

namespace TomlRel
variable {C : CurRel rcol} {o : TomlOps}

/-- The relation of errors induced by one of cursors. -/
def sim (C : CurRel rcol) (o : TomlOps) : TSim o where
  R := C.Q
  E e e' := e'.msg = e.msg ∧ ∃ c c', C.Q c c' ∧ e.line = c.line ∧ e.col = c.col ∧ e'.line = c'.line ∧ e'.col = c'.col

theorem err {α : Type} {c c' : Cur} (h : C.Q c c') (w : String) :
    (sim C o).Out (tErrParse w c : Out TErr Cur α) (tErrParse w c') :=
  ⟨⟨rfl, _, _, h, rfl, rfl, rfl, rfl⟩, h⟩

theorem comments {n : Nat} : ∀ {c c' : Cur}, C.Q c c' →
    (tComments n c = none ∧ tComments n c' = none) ∨
    ∃ d d', tComments n c = some d ∧ tComments n c' = some d' ∧ C.Q d d' := by
  induction n with
  | zero => intro c c' _; exact .inl ⟨rfl, rfl⟩
  | succ n ih =>
    intro c c' h
    simp only [tComments, CurRel.ch h]
    split
    · exact ih (CurRel.span (CurRel.span h).2).2
    · exact .inr ⟨c, c', rfl, rfl, h⟩

theorem quotes (n : Nat) : ∀ {c c' : Cur}, C.Q c c' →
    (tQuotes n c').1 = (tQuotes n c).1 ∧ C.Q (tQuotes n c).2 (tQuotes n c').2 := by
  induction n with
  | zero => intro c c' h; exact ⟨rfl, h⟩
  | succ n ih =>
    intro c c' h
    simp only [tQuotes, CurRel.ch h]
    obtain ⟨h1, h2⟩ := ih (C.next h)
    split
    · exact ⟨congrArg (· + 1) h1, h2⟩
    · exact ⟨rfl, h⟩

theorem strBody (long : Bool) (n : Nat) : ∀ {c c' : Cur} (val : List Char), C.Q c c' →
    (sim C o).Out (tStrBody long n val c) (tStrBody long n val c') := by
  induction n with
  | zero => intro c c' val h; trivial
  | succ n ih =>
    intro c c' val h
    have h1 : C.Q c.tnext c'.tnext := C.next h
    have hs := CurRel.span (p := (· == '"')) h
    simp only [tStrBody, CurRel.ch h, CurRel.ch h1, hs.1, CurRel.ch hs.2]
    split
    · split
      · split
        · exact ⟨rfl, hs.2⟩
        · exact ih _ (C.next hs.2)
      · exact ⟨rfl, h⟩
    · split
      · exact ih _ (C.next h1)
      · split
        · exact err h _
        · exact ih _ h1

theorem str {c c' : Cur} (h : C.Q c c') : (sim C o).Out (tStr c) (tStr c') := by
  obtain ⟨h1, h2⟩ := quotes 2 (C.next h)
  simp only [tStr]
  have h1 : (tQuotes 2 c'.tnext).1 = (tQuotes 2 c.tnext).1 := h1
  have h2 : C.Q (tQuotes 2 c.tnext).2 (tQuotes 2 c'.tnext).2 := h2
  rw [h1, C.txt h2]
  have := strBody (o := o) ((tQuotes 2 c.tnext).1 == 2) ((tQuotes 2 c.tnext).2.txt.length + 2) [] h2
  generalize tStrBody ((tQuotes 2 c.tnext).1 == 2) ((tQuotes 2 c.tnext).2.txt.length + 2) [] (tQuotes 2 c.tnext).2 = x at this ⊢
  generalize tStrBody ((tQuotes 2 c.tnext).1 == 2) ((tQuotes 2 c.tnext).2.txt.length + 2) [] (tQuotes 2 c'.tnext).2 = y at this ⊢
  cases x <;> cases y
  all_goals first | trivial | exact this.elim | exact this | skip
  · obtain ⟨e, h⟩ := this
    exact ⟨by rw [e], C.next h⟩

theorem ident {c c' : Cur} (start : List Char) (h : C.Q c c') : (sim C o).Out (tIdent start c) (tIdent start c') := by
  have hs := CurRel.span (p := fun x => isTIdent x || x == '.') h
  simp only [tIdent, hs.1, CurRel.ch hs.2]
  split
  · exact ⟨rfl, hs.2⟩
  · exact err hs.2 _

theorem word (w : List Char) : ∀ {c c' : Cur}, C.Q c c' →
    (tWord w c').1 = (tWord w c).1 ∧ (tWord w c').2.1 = (tWord w c).2.1 ∧ C.Q (tWord w c).2.2 (tWord w c').2.2 := by
  induction w with
  | nil => intro c c' h; exact ⟨rfl, rfl, h⟩
  | cons x w ih =>
    intro c c' h
    simp only [tWord, CurRel.ch h]
    obtain ⟨h1, h2, h3⟩ := ih (C.next h)
    split
    · exact ⟨congrArg (x :: ·) h1, h2, h3⟩
    · exact ⟨rfl, rfl, h⟩

theorem numRest {c c' : Cur} (neg : Bool) (num : List Char) (h : C.Q c c') :
    (sim C o).Out (tNumRest o neg num c) (tNumRest o neg num c') := by
  have hs := CurRel.span (p := isDigU) h
  have hn := C.next hs.2
  have hf := CurRel.span (p := isDigU) hn
  have hd := CurRel.span (p := isTDate) hn
  simp only [tNumRest, Cur.tnext, hs.1, CurRel.ch hs.2, hf.1, hd.1]
  split
  · generalize o.parse64 _ = x
    cases x with
    | none => exact err hf.2 _
    | some x => exact ⟨rfl, hf.2⟩
  · split
    · exact ⟨rfl, hd.2⟩
    · split
      · exact ident _ hs.2
      · generalize parseI64Str _ = x
        cases x with
        | none => exact err hs.2 _
        | some x => exact ⟨rfl, hs.2⟩

theorem num {c c' : Cur} (h : C.Q c c') : (sim C o).Out (tNum o c) (tNum o c') := by
  have key : ∀ (num : List Char) (neg : Bool) {d d' : Cur}, C.Q d d' → (sim C o).Out
      (if d.ch = 'n' then
        if (tWord ['n', 'a', 'n'] d).2.1 && isTTerm (tWord ['n', 'a', 'n'] d).2.2.ch then .ok (.nan neg) (tWord ['n', 'a', 'n'] d).2.2
        else tNumRest o neg (num ++ (tWord ['n', 'a', 'n'] d).1) (tWord ['n', 'a', 'n'] d).2.2
      else if d.ch = 'i' then
        if (tWord ['i', 'n', 'f'] d).2.1 && isTTerm (tWord ['i', 'n', 'f'] d).2.2.ch then .ok (.inf neg) (tWord ['i', 'n', 'f'] d).2.2
        else tNumRest o neg (num ++ (tWord ['i', 'n', 'f'] d).1) (tWord ['i', 'n', 'f'] d).2.2
      else tNumRest o neg num d)
      (if d'.ch = 'n' then
        if (tWord ['n', 'a', 'n'] d').2.1 && isTTerm (tWord ['n', 'a', 'n'] d').2.2.ch then .ok (.nan neg) (tWord ['n', 'a', 'n'] d').2.2
        else tNumRest o neg (num ++ (tWord ['n', 'a', 'n'] d').1) (tWord ['n', 'a', 'n'] d').2.2
      else if d'.ch = 'i' then
        if (tWord ['i', 'n', 'f'] d').2.1 && isTTerm (tWord ['i', 'n', 'f'] d').2.2.ch then .ok (.inf neg) (tWord ['i', 'n', 'f'] d').2.2
        else tNumRest o neg (num ++ (tWord ['i', 'n', 'f'] d').1) (tWord ['i', 'n', 'f'] d').2.2
      else tNumRest o neg num d') := by
    intro num neg d d' hd
    have h1 := word ['n', 'a', 'n'] hd
    have h2 := word ['i', 'n', 'f'] hd
    rw [h1.1, h1.2.1, CurRel.ch h1.2.2, h2.1, h2.2.1, CurRel.ch h2.2.2, CurRel.ch hd]
    split
    · split
      · exact ⟨rfl, h1.2.2⟩
      · exact numRest _ _ h1.2.2
    · split
      · split
        · exact ⟨rfl, h2.2.2⟩
        · exact numRest _ _ h2.2.2
      · exact numRest _ _ hd
  simp only [tNum, CurRel.ch h]
  split
  · exact key _ _ (C.next h)
  · split
    · exact key _ _ (C.next h)
    · exact key _ _ h

theorem tok {c c' : Cur} (h : C.Q c c') : (sim C o).Out (tTok o c) (tTok o c') := by
  simp only [tTok, CurRel.ch h]
  have h1 : C.Q c.tnext c'.tnext := C.next h
  split
  · exact ⟨rfl, h⟩
  split
  · exact ⟨rfl, h1⟩
  split
  · exact ⟨rfl, h1⟩
  split
  · exact ⟨rfl, h1⟩
  split
  · exact ⟨rfl, h1⟩
  split
  · exact num h
  split
  · exact str h
  split
  · exact ident _ h
  · exact err h _

theorem next {c c' : Cur} (h : C.Q c c') : (sim C o).Out (tNext o c) (tNext o c') := by
  simp only [tNext, C.txt h]
  rcases comments (n := c.txt.length + 1) (CurRel.span (p := isWs) h).2 with ⟨e1, e2⟩ | ⟨d, d', e1, e2, hd⟩
  · rw [e1, e2]; trivial
  · rw [e1, e2]; exact tok hd

theorem good (C : CurRel rcol) (o : TomlOps) : (sim C o).Good where
  next := fun _ _ h => next h
  err := fun _ h => ⟨rfl, _, _, h, rfl, rfl, rfl, rfl⟩

end TomlRel

/-- Same remaining text. -/
def txtRel : CurRel rcol where
  Q c c' := c'.txt = c.txt
  txt h := h
  next h := by rw [Cur.next_txt, Cur.next_txt, h]

end NS
