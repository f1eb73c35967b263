import Verif.Lemmas.JsonMissing
/-! Arrays, tuples and enums as JSON values. -/
namespace NS
variable {env : Env} {fl : FloatOps}

theorem decode_none_err (env : Env) (fl : FloatOps) (n : Nat) (t : Ty) :
    decode env fl n t none = .err ∨ decode env fl n t none = .oof := by
  have key : ∀ {α β : Type} {d : Dec α} {f : α → Dec β}, (d = .err ∨ d = .oof) → (d.bind f = .err ∨ d.bind f = .oof) := by
    intro α β d f h
    rcases h with h | h <;> rw [h]
    · exact .inl rfl
    · exact .inr rfl
  induction n generalizing t with
  | zero => exact .inr rfl
  | succ n ih =>
    cases t with
    | int k => unfold decode; simp only; split <;> simp
    | option t => exact key (ih t)
    | box t => exact key (ih t)
    | named i =>
      unfold decode; simp only
      split
      · exact .inl rfl
      · rename_i ts tr _
        unfold decTupleStruct
        split
        · exact .inl rfl
        · exact key (ih _)
        · exact .inl rfl
        · exact .inl rfl
      · exact .inl rfl
      · exact .inr rfl
    | proxied i =>
      unfold decode; simp only
      split
      · exact key (ih _)
      · exact .inr rfl
    | _ => exact .inl rfl

theorem den_none (hw : ProgWf env) (hp : Productive env) {t : Ty} (ht : TyWf env t) : den env fl t none = .err := by
  obtain ⟨h0, h⟩ := den_spec (fl := fl) hw hp ht none
  have : Ev fun n => den env fl t none = .err ∨ den env fl t none = .oof :=
    h.mono fun n hn => hn ▸ decode_none_err env fl n t
  rcases this.elim with h | h
  · exact h
  · exact absurd h h0

theorem decTys_iff (hw : ProgWf env) (hp : Productive env) (ts : List Ty) (hts : ∀ t ∈ ts, TyWf env t) (xs : List JTree)
    (hx : ∀ x ∈ xs, Spellable fl x.lexemes) (vs : List Val) :
    decTys (den env fl) ts xs = .ok vs ↔ ItemsRead env fl ts xs vs := by
  induction ts generalizing xs vs with
  | nil =>
    cases xs with
    | nil =>
      simp only [decTys, Dec.ok.injEq]
      constructor
      · rintro rfl; exact .nil
      · intro h; cases h; rfl
    | cons x xs =>
      simp only [decTys, reduceCtorEq, false_iff]
      intro h; cases h
  | cons t ts ih =>
    cases xs with
    | nil =>
      simp only [decTys, den_none hw hp (hts t (List.mem_cons_self ..)), Dec.bind, reduceCtorEq, false_iff]
      intro h; cases h
    | cons x xs =>
      simp only [decTys, Dec.bind_eq_ok]
      have hr := @readsAs_iff env fl hw hp t (hts t (List.mem_cons_self ..)) x
      have ih' := ih (fun t' h => hts t' (List.mem_cons_of_mem _ h)) xs (fun y h => hx y (List.mem_cons_of_mem _ h))
      constructor
      · rintro ⟨v, h1, ws, h2, h3⟩
        injection h3 with h3
        subst h3
        exact .cons ((hr (hx x (List.mem_cons_self ..))).2 h1) ((ih' ws).1 h2)
      · intro h
        cases h with
        | @cons _ _ _ _ v ws h1 h2 =>
          exact ⟨v, (hr (hx x (List.mem_cons_self ..))).1 h1, ws, (ih' ws).2 h2, rfl⟩

theorem decTuple_iff (hw : ProgWf env) (hp : Productive env) (ts : List Ty) (hts : ∀ t ∈ ts, TyWf env t) (J : JTree)
    (hx : Spellable fl J.lexemes) (vs : List Val) :
    decTuple (den env fl) ts (some J) = .ok vs ↔ ∃ xs tr, J = .arr xs tr ∧ ItemsRead env fl ts xs vs := by
  cases J with
  | arr xs tr =>
    simp only [decTuple]
    rw [decTys_iff hw hp ts hts xs (fun x h => hx.arr h)]
    constructor
    · intro h; exact ⟨xs, tr, rfl, h⟩
    · rintro ⟨xs', tr', h, h'⟩; cases h; exact h'
  | _ => simp [decTuple]

/-- Readable items but a wrong number of them. -/
theorem decTys_wrong (hw : ProgWf env) (hp : Productive env) (ts : List Ty) (hts : ∀ t ∈ ts, TyWf env t) (xs : List JTree)
    (hr : ∀ (i : Nat) t x, ts[i]? = some t → xs[i]? = some x → ∃ v, den env fl t (some x) = .ok v)
    (hne : xs.length ≠ ts.length) : decTys (den env fl) ts xs = .err := by
  induction ts generalizing xs with
  | nil =>
    cases xs with
    | nil => simp at hne
    | cons x xs => rfl
  | cons t ts ih =>
    cases xs with
    | nil => simp only [decTys, den_none hw hp (hts t (List.mem_cons_self ..)), Dec.bind]
    | cons x xs =>
      obtain ⟨v, hv⟩ := hr 0 t x rfl rfl
      simp only [decTys, hv, Dec.bind]
      rw [ih (fun t' h => hts t' (List.mem_cons_of_mem _ h)) xs (fun i t x h1 h2 => hr (i + 1) t x h1 h2) (by simpa using hne)]

end NS
