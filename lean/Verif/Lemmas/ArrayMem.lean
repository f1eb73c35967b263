import Verif.Spec.ArrayMem
import Verif.Lemmas.Monad
/-! # Lemmas on the memory handling of array readers -/
namespace NS
variable {ε σ : Type}

/-- The reader of an array as a plain loop. -/
def arrayPlain (open_ : M ε σ Unit) (x : M ε σ Val) (eat close : M ε σ Unit) (N : Nat) : M ε σ Val := do
  open_
  let vs ← repeatM (do let v ← x; eat; pure v) N
  close
  pure (.seq vs)

/-- `k` initialised slots holding `os`, then `r` uninitialised ones. -/
def slots (os : List Owned) (r : Nat) : List Slot := os.map .init ++ List.replicate r .uninit

theorem slots_set (os : List Owned) (r : Nat) (o : Owned) :
    (slots os (r + 1)).set os.length (.init o) = slots (os ++ [o]) r := by
  induction os with
  | nil => simp [slots, List.replicate_succ]
  | cons a os ih =>
    simp only [slots, List.map_cons, List.cons_append, List.length_cons, List.set_cons_succ] at ih ⊢
    rw [ih]

theorem dropFirst_slots (os : List Owned) (r : Nat) (h : Heap) :
    dropFirst os.length (slots os r) h = some (h.dropAll os) := by
  induction os generalizing h with
  | nil => simp [dropFirst, Heap.dropAll]
  | cons a os ih =>
    have := ih (h.drop a)
    simp only [slots, List.map_cons, List.cons_append, List.length_cons, dropFirst] at this ⊢
    rw [this]
    simp [Heap.drop, Heap.dropAll]

theorem readAll_slots (os : List Owned) : readAll (slots os 0) = some os := by
  induction os with
  | nil => rfl
  | cons a os ih =>
    simp only [slots, List.map_cons, List.cons_append, readAll] at ih ⊢
    rw [ih]; rfl

/-- The loop and the plain loop go together. -/
theorem fillMem_spec (x : M ε σ Val) (eat : M ε σ Unit) (todo : Nat) (os : List Owned) (s : σ) (h : Heap) :
    (∃ os' s' , fillMem x eat todo os.length (slots os todo) s h =
        .ok (slots (os ++ os') 0) s' ⟨h.made + todo, h.dropped⟩ ∧
      os'.map Owned.id = List.range' h.made todo ∧
      repeatM (do let v ← x; eat; pure v) todo s = .ok (os'.map Owned.val) s') ∨
    (∃ e s' k l, fillMem x eat todo os.length (slots os todo) s h =
        .err e s' ⟨h.made + k, h.dropped ++ l⟩ ∧ k ≤ todo ∧ l.Perm (os.map Owned.id ++ List.range' h.made k) ∧
      repeatM (do let v ← x; eat; pure v) todo s = .err e s') ∨
    (∃ k l, fillMem x eat todo os.length (slots os todo) s h = .panic ⟨h.made + k, h.dropped ++ l⟩ ∧
      l.Sublist (List.range' h.made k) ∧
      repeatM (do let v ← x; eat; pure v) todo s = .panic) ∨
    (fillMem x eat todo os.length (slots os todo) s h = .oof ∧
      repeatM (do let v ← x; eat; pure v) todo s = .oof) := by
  induction todo generalizing os s h with
  | zero => exact Or.inl ⟨[], s, by simp [fillMem], rfl, rfl⟩
  | succ todo ih =>
    simp only [fillMem, repeatM, elemMem]
    cases hx : x s with
    | oof => exact Or.inr (Or.inr (Or.inr ⟨rfl, M.bind_oof (M.bind_oof hx)⟩))
    | panic => exact Or.inr (Or.inr (Or.inl ⟨0, [], by simp, by simp, M.bind_panic (M.bind_panic hx)⟩))
    | err e s1 =>
      refine Or.inr (Or.inl ⟨e, s1, 0, os.map Owned.id, ?_, by omega, by simp, M.bind_err (M.bind_err hx)⟩)
      simp [dropFirst_slots, Heap.dropAll]
    | ok v s1 =>
      cases he : eat s1 with
      | oof => exact Or.inr (Or.inr (Or.inr ⟨by simp [he], M.bind_oof ((M.bind_ok hx).trans (M.bind_oof he))⟩))
      | panic =>
        exact Or.inr (Or.inr (Or.inl ⟨1, [h.made], by simp [he, Heap.drop], by simp, M.bind_panic ((M.bind_ok hx).trans (M.bind_panic he))⟩))
      | err e s2 =>
        refine Or.inr (Or.inl ⟨e, s2, 1, h.made :: os.map Owned.id, ?_, by omega, ?_, M.bind_err ((M.bind_ok hx).trans (M.bind_err he))⟩)
        · simp [he, dropFirst_slots, Heap.dropAll, Heap.drop]
        · have : h.made :: os.map Owned.id = [h.made] ++ os.map Owned.id := rfl
          rw [this]
          exact List.perm_append_comm
      | ok u s2 =>
        have hlt : os.length < (slots os (todo + 1)).length := by simp [slots]
        simp only [he, if_pos hlt, slots_set]
        have hone : (do let v ← x; eat; pure v : M ε σ Val) s = .ok v s2 := (M.bind_ok hx).trans (M.bind_ok he)
        have hl : (os ++ [(⟨h.made, v⟩ : Owned)]).length = os.length + 1 := by simp
        have hrep : ∀ {r : Out ε σ (List Val)}, repeatM (do let v ← x; eat; pure v) todo s2 = r →
            (do let a ← (do let v ← x; eat; pure v : M ε σ Val)
                let as ← repeatM (do let v ← x; eat; pure v) todo
                pure (a :: as) : M ε σ (List Val)) s =
              match r with
              | .ok as s => .ok (v :: as) s
              | .err e s => .err e s
              | .panic => .panic
              | .oof => .oof := by
          intro r hr
          rw [M.bind_ok hone]
          cases r with
          | ok as s => exact M.bind_ok hr
          | err e s => exact M.bind_err hr
          | panic => exact M.bind_panic hr
          | oof => exact M.bind_oof hr
        have hsum : ∀ k, h.made + 1 + k = h.made + (k + 1) := fun k => by omega
        rcases ih (os ++ [⟨h.made, v⟩]) s2 { h with made := h.made + 1 } with
          ⟨os', s', h1, h2, h3⟩ | ⟨e, s', k, l, h1, h2, h3, h4⟩ | ⟨k, l, h1, h2, h3⟩ | ⟨h1, h2⟩
        · rw [hl] at h1
          refine Or.inl ⟨⟨h.made, v⟩ :: os', s', ?_, ?_, ?_⟩
          · rw [h1]; simp [hsum]
          · simp [h2, List.range'_succ]
          · rw [hrep h3]; rfl
        · rw [hl] at h1
          refine Or.inr (Or.inl ⟨e, s', k + 1, l, ?_, by omega, ?_, ?_⟩)
          · rw [h1, hsum]
          · rw [List.range'_succ]; simpa using h3
          · rw [hrep h4]
        · rw [hl] at h1
          refine Or.inr (Or.inr (Or.inl ⟨k + 1, l, ?_, ?_, ?_⟩))
          · rw [h1, hsum]
          · rw [List.range'_succ]; exact h2.trans (List.sublist_cons_self _ _)
          · rw [hrep h3]
        · rw [hl] at h1
          exact Or.inr (Or.inr (Or.inr ⟨h1, by rw [hrep h2]⟩))

/-- The array reader, with its book-keeping. -/
theorem arrayMem_spec (open_ : M ε σ Unit) (x : M ε σ Val) (eat close : M ε σ Unit) (N : Nat) (s : σ) (h : Heap) :
    (∃ os s', arrayMem open_ x eat close N s h = .ok os s' ⟨h.made + N, h.dropped⟩ ∧
      os.map Owned.id = List.range' h.made N ∧
      arrayPlain open_ x eat close N s = .ok (.seq (os.map Owned.val)) s') ∨
    (∃ e s' k l, arrayMem open_ x eat close N s h = .err e s' ⟨h.made + k, h.dropped ++ l⟩ ∧ k ≤ N ∧
      l.Perm (List.range' h.made k) ∧ arrayPlain open_ x eat close N s = .err e s') ∨
    (∃ k l, arrayMem open_ x eat close N s h = .panic ⟨h.made + k, h.dropped ++ l⟩ ∧
      l.Sublist (List.range' h.made k) ∧ arrayPlain open_ x eat close N s = .panic) ∨
    (arrayMem open_ x eat close N s h = .oof ∧ arrayPlain open_ x eat close N s = .oof) := by
  simp only [arrayMem, arrayPlain]
  cases ho : open_ s with
  | oof => exact Or.inr (Or.inr (Or.inr ⟨rfl, M.bind_oof ho⟩))
  | panic => exact Or.inr (Or.inr (Or.inl ⟨0, [], by simp, by simp, M.bind_panic ho⟩))
  | err e s1 => exact Or.inr (Or.inl ⟨e, s1, 0, [], by simp, by omega, by simp, M.bind_err ho⟩)
  | ok u s1 =>
    simp only [M.bind_ok ho]
    have hs : (List.replicate N .uninit : List Slot) = slots [] N := rfl
    rw [hs]
    rcases fillMem_spec x eat N [] s1 h with
      ⟨os', s', h1, h2, h3⟩ | ⟨e, s', k, l, h1, h2, h3, h4⟩ | ⟨k, l, h1, h2, h3⟩ | ⟨h1, h2⟩
    · rw [List.length_nil] at h1
      rw [h1, M.bind_ok h3]
      simp only [List.nil_append, readAll_slots]
      cases hc : close s' with
      | oof => exact Or.inr (Or.inr (Or.inr ⟨rfl, M.bind_oof hc⟩))
      | panic => exact Or.inr (Or.inr (Or.inl ⟨N, _, rfl, by rw [h2]; exact List.Sublist.refl _, M.bind_panic hc⟩))
      | err e s2 => exact Or.inr (Or.inl ⟨e, s2, N, _, rfl, Nat.le_refl _, by rw [h2], M.bind_err hc⟩)
      | ok u s2 => exact Or.inl ⟨os', s2, rfl, h2, by rw [M.bind_ok hc]; rfl⟩
    · rw [List.length_nil] at h1
      rw [h1]
      exact Or.inr (Or.inl ⟨e, s', k, l, rfl, h2, by simpa using h3, M.bind_err h4⟩)
    · rw [List.length_nil] at h1
      rw [h1]
      exact Or.inr (Or.inr (Or.inl ⟨k, l, rfl, h2, M.bind_panic h3⟩))
    · rw [List.length_nil] at h1
      rw [h1]
      exact Or.inr (Or.inr (Or.inr ⟨rfl, M.bind_oof h2⟩))

end NS
