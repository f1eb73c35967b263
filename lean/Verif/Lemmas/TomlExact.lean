import Verif.Lemmas.TomlPanic
/-! TOML errors report the position where reading stopped. -/
namespace NS
variable {o : TomlOps}

/-- Errors carry the position of the state. -/
def TExact {α : Type} (x : TM α) : Prop := ∀ c e s, x c = .err e s → e.line = s.line ∧ e.col = s.col

theorem TExact.pure {α : Type} (a : α) : TExact (Pure.pure a : TM α) := fun _ _ _ h => by cases h
theorem TExact.errToken {α : Type} (t : TTok) : TExact (tErrToken t : TM α) := fun _ _ _ h => by cases h; exact ⟨rfl, rfl⟩
theorem TExact.errParse {α : Type} (t : String) : TExact (tErrParse t : TM α) := fun _ _ _ h => by cases h; exact ⟨rfl, rfl⟩
theorem TExact.oof {α : Type} : TExact (M.oof : TM α) := fun _ _ _ h => by cases h
theorem TExact.ite {α : Type} {p : Prop} [Decidable p] {x y : TM α} (hx : TExact x) (hy : TExact y) :
    TExact (if p then x else y) := by
  split
  · exact hx
  · exact hy
theorem TExact.orPanic {α : Type} (x : Option α) : TExact (orPanic x) := by
  cases x with
  | none => intro _ _ _ h; cases h
  | some a => intro _ _ _ h; cases h

theorem TExact.bind {α β : Type} {x : TM α} {f : α → TM β} (hx : TExact x) (hf : ∀ a, TExact (f a)) : TExact (x >>= f) := by
  intro c e s h
  have h : M.bind x f c = .err e s := h
  unfold M.bind at h
  cases hx1 : x c with
  | ok a c1 => rw [hx1] at h; exact hf a c1 e s h
  | err _ _ => rw [hx1] at h; cases h; exact hx _ _ _ hx1
  | panic => rw [hx1] at h; cases h
  | oof => rw [hx1] at h; cases h

theorem tIdent_exact (st : List Char) : TExact (tIdent st) := by
  intro c e s h
  simp only [tIdent] at h
  split at h
  · cases h
  · cases h; exact ⟨rfl, rfl⟩

theorem tNumRest_exact (neg : Bool) (num : List Char) : TExact (tNumRest o neg num) := by
  intro c e s h
  simp only [tNumRest] at h
  split at h
  · split at h
    · cases h
    · cases h; exact ⟨rfl, rfl⟩
  · split at h
    · cases h
    · split at h
      · exact tIdent_exact _ _ _ _ h
      · split at h
        · cases h
        · cases h; exact ⟨rfl, rfl⟩

theorem tNum_exact : TExact (tNum o) := by
  intro c e s h
  have key : ∀ (num : List Char) (neg : Bool) (d : Cur),
      (if d.ch = 'n' then
        if (tWord ['n', 'a', 'n'] d).2.1 && isTTerm (tWord ['n', 'a', 'n'] d).2.2.ch then .ok (.nan neg) (tWord ['n', 'a', 'n'] d).2.2
        else tNumRest o neg (num ++ (tWord ['n', 'a', 'n'] d).1) (tWord ['n', 'a', 'n'] d).2.2
      else if d.ch = 'i' then
        if (tWord ['i', 'n', 'f'] d).2.1 && isTTerm (tWord ['i', 'n', 'f'] d).2.2.ch then .ok (.inf neg) (tWord ['i', 'n', 'f'] d).2.2
        else tNumRest o neg (num ++ (tWord ['i', 'n', 'f'] d).1) (tWord ['i', 'n', 'f'] d).2.2
      else tNumRest o neg num d) = .err e s → e.line = s.line ∧ e.col = s.col := by
    intro num neg d h
    split at h
    · split at h
      · cases h
      · exact tNumRest_exact _ _ _ _ _ h
    · split at h
      · split at h
        · cases h
        · exact tNumRest_exact _ _ _ _ _ h
      · exact tNumRest_exact _ _ _ _ _ h
  simp only [tNum] at h
  split at h
  · exact key _ _ _ h
  · split at h
    · exact key _ _ _ h
    · exact key _ _ _ h

theorem tStrBody_exact (long : Bool) (n : Nat) : ∀ val, TExact (tStrBody long n val) := by
  induction n with
  | zero => intro val c e s h; cases h
  | succ n ih =>
    intro val c e s h
    simp only [tStrBody] at h
    split at h
    · split at h
      · split at h
        · cases h
        · exact ih _ _ _ _ h
      · cases h
    · split at h
      · exact ih _ _ _ _ h
      · split at h
        · cases h; exact ⟨rfl, rfl⟩
        · exact ih _ _ _ _ h

theorem tStr_exact : TExact tStr := by
  intro c e s h
  simp only [tStr] at h
  split at h
  · cases h
  · rename_i h'
    cases h
    exact tStrBody_exact _ _ _ _ _ _ h'
  · cases h
  · cases h

theorem tNext_exact : TExact (tNext o) := by
  intro c e s h
  simp only [tNext] at h
  split at h
  · cases h
  · simp only [tTok] at h
    split at h
    · cases h
    split at h
    · cases h
    split at h
    · cases h
    split at h
    · cases h
    split at h
    · cases h
    split at h
    · exact tNum_exact _ _ _ h
    split at h
    · exact tStr_exact _ _ _ h
    split at h
    · exact tIdent_exact _ _ _ _ h
    · cases h; exact ⟨rfl, rfl⟩

theorem tVal_exact : ∀ n, (∀ t, TExact (tVal o n t)) ∧ ∀ vs, TExact (tVals o n vs) := by
  intro n
  induction n with
  | zero => exact ⟨fun t => by simpa [tVal] using TExact.oof, fun vs => by simpa [tVals] using TExact.oof⟩
  | succ n ih =>
    refine ⟨fun t => ?_, fun vs => ?_⟩
    · cases t <;> simp only [tVal] <;>
        first | exact TExact.pure _ | exact TExact.errToken _ | exact TExact.bind (ih.2 []) fun _ => TExact.pure _
    · simp only [tVals]
      exact TExact.bind tNext_exact fun t => TExact.ite (TExact.pure _)
        (TExact.ite (TExact.bind (ih.1 t) fun v => ih.2 _) (ih.2 _))

theorem tExpect_exact (t : TTok) : TExact (tExpect o t) :=
  TExact.bind tNext_exact fun _ => TExact.ite (TExact.errToken _) (TExact.pure _)

theorem tHeader_exact (u : TOut) : TExact (tHeader o u) := by
  refine TExact.bind tNext_exact (fun t => ?_)
  cases t <;> simp only
  case str => exact TExact.bind (tExpect_exact _) fun _ => TExact.pure _
  case ident => exact TExact.bind (tExpect_exact _) fun _ => TExact.pure _
  case blockOpen =>
    exact TExact.bind tNext_exact fun t => TExact.ite (TExact.bind (tExpect_exact _) fun _ => TExact.bind (tExpect_exact _) fun _ =>
      TExact.bind (TExact.orPanic _) fun _ => TExact.pure _) (TExact.errToken _)
  all_goals exact TExact.errToken _

theorem tLoop_exact : ∀ (n : Nat) (u : TOut), TExact (tLoop o n u) := by
  intro n
  induction n with
  | zero => intro u; simpa [tLoop] using TExact.oof
  | succ n ih =>
    intro u
    simp only [tLoop]
    refine TExact.bind ?_ fun r => by
      cases r with
      | none => exact TExact.pure _
      | some u => exact ih u
    exact TExact.bind tNext_exact fun t => TExact.ite (TExact.pure _) (TExact.ite (TExact.bind (tHeader_exact u) fun _ => TExact.pure _)
      (TExact.ite (TExact.bind (TExact.bind (tExpect_exact _) fun _ => TExact.bind tNext_exact fun t =>
        TExact.bind ((tVal_exact n).1 t) fun v => TExact.orPanic _) fun _ => TExact.pure _) (TExact.errToken _)))

end NS
