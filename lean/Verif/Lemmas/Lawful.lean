import Mathlib.SetTheory.Cardinal.Order
import Verif.Model.Base
/-!
An environment whose key order is lawful exists for any definitions and proxies: the laws
`LawfulKeys` asks of `Ord`/`Eq` impls are satisfiable.  Used only for non-vacuity examples.
-/
namespace NS

/-- Comparison along some well-order of all values. -/
noncomputable def anyCmp (a b : Val) : Ordering :=
  open Classical in
  if a = b then .eq else if WellOrderingRel a b then .lt else .gt

/-- An environment with lawful keys. -/
noncomputable def lawEnv (defs : List Def) (proxies : List Proxy) : Env where
  defs := defs
  proxies := proxies
  cmp := anyCmp
  keyEq := fun a b => open Classical in decide (a = b)

theorem lawEnv_lawful (defs : List Def) (proxies : List Proxy) : LawfulKeys (lawEnv defs proxies) := by
  have irr : ∀ a : Val, ¬ WellOrderingRel a a := fun a => irrefl_of WellOrderingRel a
  have tr : ∀ {a b c : Val}, WellOrderingRel a b → WellOrderingRel b c → WellOrderingRel a c :=
    fun h1 h2 => trans_of WellOrderingRel h1 h2
  have tri : ∀ a b : Val, WellOrderingRel a b ∨ a = b ∨ WellOrderingRel b a :=
    fun a b => trichotomous_of WellOrderingRel a b
  have lt : ∀ a b, anyCmp a b = .lt ↔ WellOrderingRel a b := by
    intro a b
    unfold anyCmp
    split
    · rename_i h; subst h; simp [irr]
    · split <;> simp [*]
  have gt : ∀ a b, anyCmp a b = .gt ↔ WellOrderingRel b a := by
    intro a b
    unfold anyCmp
    split
    · rename_i h; subst h; simp [irr]
    · rename_i hne
      split
      · rename_i h; simp; exact fun h' => irr _ (tr h h')
      · rename_i h; simp
        rcases tri a b with h1 | h1 | h1
        · exact absurd h1 h
        · exact absurd h1 hne
        · exact h1
  constructor
  · intro a b
    show anyCmp a b = .eq ↔ a = b
    unfold anyCmp
    split
    · simp [*]
    · split <;> simp [*]
  · intro a b
    show anyCmp a b = .lt ↔ anyCmp b a = .gt
    rw [lt, gt]
  · intro a b c
    show anyCmp a b = .lt → anyCmp b c = .lt → anyCmp a c = .lt
    rw [lt, lt, lt]; exact tr
  · intro a b
    simp [lawEnv]

end NS
