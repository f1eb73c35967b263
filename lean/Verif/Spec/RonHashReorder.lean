import Verif.Spec.RonReorder
/-!
# RON values that differ, at any depth, in the order of what is read into hash containers
-/
namespace NS

/-- The map entries with these strings as keys. -/
def ronEntries (ms : List (List Char × RTree)) : List (RTree × RTree) := ms.map fun m => (.str m.1, m.2)

/-- `RRehashed env t x x'`: read at the type `t`, the RON values `x` and `x'` differ, at any depth, only in the
order of the elements of `HashSet`s, in the order of the entries of `HashMap<String, _>`s (and `BTreeMap<String, _>`s)
without repeated keys, and in trailing commas. -/
inductive RRehashed (env : Env) : Ty → RTree → RTree → Prop where
  | refl {t x} : RRehashed env t x x
  | hset {t xs ys tr tr'} : xs.Perm ys → RRehashed env (.hset t) (.list xs tr) (.list ys tr')
  | hmap {t tr tr'} (ms : List (List Char × RTree)) (ps : List (List Char × RTree × RTree)) :
      ps.Pairwise (fun p q => p.1 ≠ q.1) → (ps.map fun p => (p.1, p.2.2)).Perm ms →
      (∀ p ∈ ps, RRehashed env t p.2.1 p.2.2) →
      RRehashed env (.hmap .str t) (.map (ronEntries (ps.map fun p => (p.1, p.2.1))) tr) (.map (ronEntries ms) tr')
  | bmap {t tr tr'} (ms : List (List Char × RTree)) (ps : List (List Char × RTree × RTree)) :
      ps.Pairwise (fun p q => p.1 ≠ q.1) → (ps.map fun p => (p.1, p.2.2)).Perm ms →
      (∀ p ∈ ps, RRehashed env t p.2.1 p.2.2) →
      RRehashed env (.bmap .str t) (.map (ronEntries (ps.map fun p => (p.1, p.2.1))) tr) (.map (ronEntries ms) tr')
  | option {t x x'} : RRehashed env t x x' → RRehashed env (.option t) x x'
  | box {t x x'} : RRehashed env t x x' → RRehashed env (.box t) x x'
  | seq {c t tr tr'} (ps : List (RTree × RTree)) : c = .vec t ∨ c = .linked t →
      (∀ p ∈ ps, RRehashed env t p.1 p.2) → RRehashed env c (.list (ps.map (·.1)) tr) (.list (ps.map (·.2)) tr')
  | array {t tr tr'} (ps : List (RTree × RTree)) : (∀ p ∈ ps, RRehashed env t p.1 p.2) →
      RRehashed env (.array t ps.length) (.tuple (ps.map (·.1)) tr) (.tuple (ps.map (·.2)) tr')
  | tuple {c tr tr'} (ps : List (Ty × RTree × RTree)) :
      (∃ a b, c = .pair a b ∧ ps.map (·.1) = [a, b]) ∨ (∃ a b d, c = .triple a b d ∧ ps.map (·.1) = [a, b, d]) ∨
      (∃ a b d e, c = .quad a b d e ∧ ps.map (·.1) = [a, b, d, e]) ∨
      (∃ i trans, c = .named i ∧ env.defs[i]? = some (.tuple (ps.map (·.1)) trans)) →
      (∀ p ∈ ps, RRehashed env p.1 p.2.1 p.2.2) →
      RRehashed env c (.tuple (ps.map (·.2.1)) tr) (.tuple (ps.map (·.2.2)) tr')
  | struct {i fs cd nul tr tr'} (ps : List (List Char × RTree × RTree)) : env.defs[i]? = some (.struct fs cd nul) →
      (∀ p ∈ ps, ∀ f ∈ fs, f.skip = false → f.jsonName = p.1 → RRehashed env f.ty p.2.1 p.2.2) →
      RRehashed env (.named i) (.fields (ps.map fun p => (p.1, p.2.1)) tr) (.fields (ps.map fun p => (p.1, p.2.2)) tr')
  | structVariant {i j : Nat} {vars fs w tr tr'} {var : Variant} (ps : List (List Char × RTree × RTree)) :
      env.defs[i]? = some (.enum vars) → VariantCalled vars w j var → var.shape = .named fs →
      (∀ p ∈ ps, ∀ f ∈ fs, f.skip = false → f.jsonName = p.1 → RRehashed env f.ty p.2.1 p.2.2) →
      RRehashed env (.named i) (.ctor w (.fields (ps.map fun p => (p.1, p.2.1)) tr))
        (.ctor w (.fields (ps.map fun p => (p.1, p.2.2)) tr'))
  | tupleVariant {i j : Nat} {vars w tr tr'} {var : Variant} (ps : List (Ty × RTree × RTree)) :
      env.defs[i]? = some (.enum vars) → VariantCalled vars w j var → var.shape = .tuple (ps.map (·.1)) →
      (∀ p ∈ ps, RRehashed env p.1 p.2.1 p.2.2) →
      RRehashed env (.named i) (.ctor w (.tuple (ps.map (·.2.1)) tr)) (.ctor w (.tuple (ps.map (·.2.2)) tr'))

end NS
