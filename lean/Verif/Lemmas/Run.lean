import Verif.Spec.TextErr
/-! Deciding the outcome of one concrete run in the kernel. -/
namespace NS

mutual
/-- Equality test for values. -/
def Val.same : Val → Val → Bool
  | .unit, .unit => true
  | .bool a, .bool b => a == b
  | .int a, .int b => a == b
  | .f32 a, .f32 b => a == b
  | .f64 a, .f64 b => a == b
  | .str a, .str b => a == b
  | .dur a b, .dur c d => a == c && b == d
  | .time a b, .time c d => a == c && b == d
  | .none, .none => true
  | .some a, .some b => Val.same a b
  | .seq a, .seq b => Val.sames a b
  | .entry a b, .entry c d => Val.same a c && Val.same b d
  | .box a, .box b => Val.same a b
  | .struct a, .struct b => Val.sames a b
  | .variant i a, .variant j b => i == j && Val.sames a b
  | .prox a b, .prox c d => Val.same a c && Val.same b d
  | _, _ => false
termination_by structural v => v
/-- Equality test for lists of values. -/
def Val.sames : List Val → List Val → Bool
  | [], [] => true
  | a :: as, b :: bs => Val.same a b && Val.sames as bs
  | _, _ => false
termination_by structural v => v
end

mutual
theorem Val.same_eq : ∀ (a b : Val), Val.same a b = true → a = b
  | .unit, b, h | .none, b, h => by cases b <;> simp_all [Val.same]
  | .bool _, b, h | .int _, b, h | .f32 _, b, h | .f64 _, b, h | .str _, b, h => by cases b <;> simp_all [Val.same]
  | .dur _ _, b, h | .time _ _, b, h => by cases b <;> simp_all [Val.same]
  | .some a, b, h => by cases b <;> simp [Val.same] at h; rw [Val.same_eq a _ h]
  | .box a, b, h => by cases b <;> simp [Val.same] at h; rw [Val.same_eq a _ h]
  | .seq a, b, h => by cases b <;> simp [Val.same] at h; rw [Val.sames_eq a _ h]
  | .struct a, b, h => by cases b <;> simp [Val.same] at h; rw [Val.sames_eq a _ h]
  | .variant _ a, b, h => by cases b <;> simp [Val.same] at h; rw [h.1, Val.sames_eq a _ h.2]
  | .entry a b, c, h => by cases c <;> simp [Val.same] at h; rw [Val.same_eq a _ h.1, Val.same_eq b _ h.2]
  | .prox a b, c, h => by cases c <;> simp [Val.same] at h; rw [Val.same_eq a _ h.1, Val.same_eq b _ h.2]
theorem Val.sames_eq : ∀ (a b : List Val), Val.sames a b = true → a = b
  | [], b, h => by cases b <;> simp_all [Val.sames]
  | a :: as, b, h => by
    cases b <;> simp [Val.sames] at h
    rw [Val.same_eq a _ h.1, Val.sames_eq as _ h.2]
end

/-- The run ends in `Ok` of this value. -/
def Out.isOk {ε σ : Type} (v : Val) : Out ε σ Val → Bool
  | .ok w _ => Val.same w v
  | _ => false
/-- The run ends in an error with this reason. -/
def Out.isErr {σ α : Type} (why : Reason) : Out PErr σ α → Bool
  | .err e _ => e.msg == why
  | _ => false
/-- The run panics. -/
def Out.isPanic {ε σ α : Type} : Out ε σ α → Bool
  | .panic => true
  | _ => false

theorem Out.isOk_spec {ε σ : Type} {v : Val} {r : Out ε σ Val} (h : r.isOk v = true) : ∃ s, r = .ok v s := by
  cases r <;> simp [Out.isOk] at h
  rename_i w s
  exact ⟨s, by rw [Val.same_eq _ _ h]⟩
theorem Out.isErr_spec {σ α : Type} {why : Reason} {r : Out PErr σ α} (h : r.isErr why = true) :
    ∃ l c s, r = .err ⟨l, c, why⟩ s := by
  cases r <;> simp [Out.isErr] at h
  rename_i e s
  exact ⟨e.line, e.col, s, by rw [← h]⟩
theorem Out.isPanic_spec {ε σ α : Type} {r : Out ε σ α} (h : r.isPanic = true) : r = .panic := by
  cases r <;> simp [Out.isPanic] at h
  rfl

/-- The run ends in an error for which `f` holds. -/
def Out.errSat {ε σ α : Type} (f : ε → σ → Bool) : Out ε σ α → Bool
  | .err e s => f e s
  | _ => false

theorem Out.errSat_spec {ε σ α : Type} {f : ε → σ → Bool} {o : Out ε σ α} (h : o.errSat f = true) :
    ∃ e s, o = .err e s ∧ f e s = true := by
  cases o <;> simp [Out.errSat] at h
  exact ⟨_, _, rfl, h⟩

end NS
