import Verif.Model.Base
/-!
# The same value, with hash containers visited in another order

A value of the model lists the elements of a `HashSet` and the entries of a `HashMap` in the order in
which iteration visits them.  Rust does not fix this order: it changes from run to run, with the history
of insertions and with the hasher.  `Reordered env t v w` says that `v` and `w`, values of type `t`, are
the same except for these orders, at any depth.  Keys and set elements are compared as they are: a type
with a hash container in it has no `Hash` and no `Ord`.
-/
namespace NS

/-- `w` is `v` with hash containers visited in another order. -/
inductive Reordered (env : Env) : Ty → Val → Val → Prop where
  | same {t v} : Reordered env t v v
  /-- The elements of a `HashSet` in any order. -/
  | hset {t vs ws} : vs.Perm ws → Reordered env (.hset t) (.seq vs) (.seq ws)
  /-- The entries of a `HashMap` in any order, their values reordered. -/
  | hmap {k t ws} (ps : List (Val × Val × Val)) : (∀ p ∈ ps, Reordered env t p.2.1 p.2.2) →
      (ps.map fun p => Val.entry p.1 p.2.2).Perm ws →
      Reordered env (.hmap k t) (.seq (ps.map fun p => .entry p.1 p.2.1)) (.seq ws)
  | bmap {k t} (ps : List (Val × Val × Val)) : (∀ p ∈ ps, Reordered env t p.2.1 p.2.2) →
      Reordered env (.bmap k t) (.seq (ps.map fun p => .entry p.1 p.2.1)) (.seq (ps.map fun p => .entry p.1 p.2.2))
  | some {t v w} : Reordered env t v w → Reordered env (.option t) (.some v) (.some w)
  | box {t v w} : Reordered env t v w → Reordered env (.box t) (.box v) (.box w)
  | vec {t} (ps : List (Val × Val)) : (∀ p ∈ ps, Reordered env t p.1 p.2) →
      Reordered env (.vec t) (.seq (ps.map (·.1))) (.seq (ps.map (·.2)))
  | linked {t} (ps : List (Val × Val)) : (∀ p ∈ ps, Reordered env t p.1 p.2) →
      Reordered env (.linked t) (.seq (ps.map (·.1))) (.seq (ps.map (·.2)))
  | array {t n} (ps : List (Val × Val)) : (∀ p ∈ ps, Reordered env t p.1 p.2) →
      Reordered env (.array t n) (.seq (ps.map (·.1))) (.seq (ps.map (·.2)))
  | pair {a b} (ps : List (Ty × Val × Val)) : ps.map (·.1) = [a, b] → (∀ p ∈ ps, Reordered env p.1 p.2.1 p.2.2) →
      Reordered env (.pair a b) (.seq (ps.map (·.2.1))) (.seq (ps.map (·.2.2)))
  | triple {a b c} (ps : List (Ty × Val × Val)) : ps.map (·.1) = [a, b, c] → (∀ p ∈ ps, Reordered env p.1 p.2.1 p.2.2) →
      Reordered env (.triple a b c) (.seq (ps.map (·.2.1))) (.seq (ps.map (·.2.2)))
  | quad {a b c d} (ps : List (Ty × Val × Val)) : ps.map (·.1) = [a, b, c, d] → (∀ p ∈ ps, Reordered env p.1 p.2.1 p.2.2) →
      Reordered env (.quad a b c d) (.seq (ps.map (·.2.1))) (.seq (ps.map (·.2.2)))
  /-- Skipped fields are not looked at. -/
  | struct {i cd nn} (ps : List (Field × Val × Val)) : env.defs[i]? = .some (.struct (ps.map (·.1)) cd nn) →
      (∀ p ∈ ps, p.1.skip = true → p.2.1 = p.2.2) → (∀ p ∈ ps, p.1.skip = false → Reordered env p.1.ty p.2.1 p.2.2) →
      Reordered env (.named i) (.struct (ps.map (·.2.1))) (.struct (ps.map (·.2.2)))
  | tuple {i tr} (ps : List (Ty × Val × Val)) : env.defs[i]? = .some (.tuple (ps.map (·.1)) tr) →
      (∀ p ∈ ps, Reordered env p.1 p.2.1 p.2.2) →
      Reordered env (.named i) (.struct (ps.map (·.2.1))) (.struct (ps.map (·.2.2)))
  | tupleVariant {i j vars nm rn} (ps : List (Ty × Val × Val)) : env.defs[i]? = .some (.enum vars) →
      vars[j]? = .some ⟨nm, rn, .tuple (ps.map (·.1))⟩ → (∀ p ∈ ps, Reordered env p.1 p.2.1 p.2.2) →
      Reordered env (.named i) (.variant j (ps.map (·.2.1))) (.variant j (ps.map (·.2.2)))
  | structVariant {i j vars nm rn} (ps : List (Field × Val × Val)) : env.defs[i]? = .some (.enum vars) →
      vars[j]? = .some ⟨nm, rn, .named (ps.map (·.1))⟩ → (∀ p ∈ ps, p.1.skip = true → p.2.1 = p.2.2) →
      (∀ p ∈ ps, p.1.skip = false → Reordered env p.1.ty p.2.1 p.2.2) →
      Reordered env (.named i) (.variant j (ps.map (·.2.1))) (.variant j (ps.map (·.2.2)))

end NS
