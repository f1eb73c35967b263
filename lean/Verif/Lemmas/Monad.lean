import Verif.Spec.Basic
/-! Lemmas about the outcome monad and the typing predicates. -/
namespace NS
namespace M
variable {ε σ α β : Type}

theorem bind_def (x : M ε σ α) (f : α → M ε σ β) (s : σ) :
    (x >>= f) s = match x s with
      | .ok a s' => f a s'
      | .err e s' => .err e s'
      | .panic => .panic
      | .oof => .oof := rfl

@[simp] theorem pure_apply (a : α) (s : σ) : (Pure.pure a : M ε σ α) s = .ok a s := rfl
@[simp] theorem get_apply (s : σ) : (M.get : M ε σ σ) s = .ok s s := rfl
@[simp] theorem set_apply (s s' : σ) : (M.set s' : M ε σ Unit) s = .ok () s' := rfl
@[simp] theorem modify_apply (f : σ → σ) (s : σ) : (M.modify f : M ε σ Unit) s = .ok () (f s) := rfl
@[simp] theorem throw_apply (e : ε) (s : σ) : (M.throw e : M ε σ α) s = .err e s := rfl
@[simp] theorem panic_apply (s : σ) : (M.panic : M ε σ α) s = .panic := rfl
@[simp] theorem oof_apply (s : σ) : (M.oof : M ε σ α) s = .oof := rfl

theorem bind_ok {x : M ε σ α} {f : α → M ε σ β} {s s' : σ} {a : α} (h : x s = .ok a s') :
    (x >>= f) s = f a s' := by simp [bind_def, h]
theorem bind_err {x : M ε σ α} {f : α → M ε σ β} {s s' : σ} {e : ε} (h : x s = .err e s') :
    (x >>= f) s = .err e s' := by simp [bind_def, h]
theorem bind_panic {x : M ε σ α} {f : α → M ε σ β} {s : σ} (h : x s = .panic) :
    (x >>= f) s = .panic := by simp [bind_def, h]
theorem bind_oof {x : M ε σ α} {f : α → M ε σ β} {s : σ} (h : x s = .oof) :
    (x >>= f) s = .oof := by simp [bind_def, h]

theorem bind_eq_ok {x : M ε σ α} {f : α → M ε σ β} {s s' : σ} {b : β} :
    (x >>= f) s = .ok b s' ↔ ∃ a s1, x s = .ok a s1 ∧ f a s1 = .ok b s' := by
  rw [bind_def]
  cases x s with
  | ok a s1 =>
    exact ⟨fun h => ⟨_, _, rfl, h⟩, fun ⟨_, _, h1, h2⟩ => by injection h1 with e1 e2; subst e1 e2; exact h2⟩
  | _ => simp

end M

theorem AllTy_iff {env t vs} : AllTy env t vs ↔ ∀ v ∈ vs, HasTy env t v := by
  induction vs with
  | nil => simp [AllTy]
  | cons v vs ih => simp [AllTy, ih]

theorem HoldsAll_iff {env P d b t vs} : HoldsAll env P d b t vs ↔ ∀ v ∈ vs, Holds env P d b t v := by
  induction vs with
  | nil => simp [HoldsAll]
  | cons v vs ih => simp [HoldsAll, ih]

/-- Induction over values by size. -/
theorem Val.sizeInd {P : Val → Prop} (h : ∀ v, (∀ w, sizeOf w < sizeOf v → P w) → P v) (v : Val) :
    P v := by
  generalize hn : sizeOf v = n
  induction n using Nat.strongRecOn generalizing v with
  | _ n ih => subst hn; exact h v fun w hw => ih _ hw w rfl

theorem Val.sizeOf_mem {v : Val} {vs : List Val} (h : v ∈ vs) : sizeOf v < sizeOf vs :=
  List.sizeOf_lt_of_mem h

end NS
