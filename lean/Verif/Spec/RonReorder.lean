import Verif.Spec.RonMeans
import Verif.Spec.Reorder
/-!
# RON values that differ, at any depth, in the order of struct fields
-/
namespace NS

/-- An `Option` field that is `None` when it is absent (and may be), with a name that can be written. -/
def Field.NoneIsAbsent (cd : Bool) (f : Field) : Prop :=
  f.skip = false ∧ (∃ t, f.ty = .option t) ∧ f.mayBeAbsent cd ∧ f.absentValue = .none ∧ NotBool f.jsonName

/-- `x` and `x'` are read alike at the type `t`: neither or both start with the word `None` and are this word, and they
mean the same. -/
def RReadAlike (env : Env) (fl : FloatOps) (t : Ty) (x x' : RTree) : Prop :=
  (NotNone x ↔ NotNone x') ∧ (x = .word ['N', 'o', 'n', 'e'] ↔ x' = .word ['N', 'o', 'n', 'e']) ∧
    ∀ v, RonMeans env fl t x v ↔ RonMeans env fl t x' v

/-- `RRearranged env B t x x'`: read at the type `t`, the RON values `x` and `x'` differ, at any depth, only in the
order of the fields of structs and struct variants, of the two members of a duration, of the elements of `BTreeSet`s
and of the entries of a `BTreeMap<String, _>` without repeated keys, in trailing commas, (`dropNone`, one struct at a time) in members `None` of `Option`
fields, and in parts swapped as `B` allows. -/
inductive RRearranged (env : Env) (B : Ty → RTree → RTree → Prop) : Ty → RTree → RTree → Prop where
  | refl {t x} : RRearranged env B t x x
  | swap {t x x'} : B t x x' → RRearranged env B t x x'
  | dur {a b tr tr'} : RRearranged env B .dur (.map [a, b] tr) (.map [b, a] tr')
  | time {a b tr tr'} : RRearranged env B .time (.map [a, b] tr) (.map [b, a] tr')
  | option {t x x'} : RRearranged env B t x x' → RRearranged env B (.option t) x x'
  | box {t x x'} : RRearranged env B t x x' → RRearranged env B (.box t) x x'
  | seq {c t tr tr'} (ps : List (RTree × RTree)) : c = .vec t ∨ c = .linked t ∨ c = .hset t ∨ c = .bset t →
      (∀ p ∈ ps, RRearranged env B t p.1 p.2) → RRearranged env B c (.list (ps.map (·.1)) tr) (.list (ps.map (·.2)) tr')
  | array {t tr tr'} (ps : List (RTree × RTree)) : (∀ p ∈ ps, RRearranged env B t p.1 p.2) →
      RRearranged env B (.array t ps.length) (.tuple (ps.map (·.1)) tr) (.tuple (ps.map (·.2)) tr')
  | tuple {c tr tr'} (ps : List (Ty × RTree × RTree)) :
      (∃ a b, c = .pair a b ∧ ps.map (·.1) = [a, b]) ∨ (∃ a b d, c = .triple a b d ∧ ps.map (·.1) = [a, b, d]) ∨
      (∃ a b d e, c = .quad a b d e ∧ ps.map (·.1) = [a, b, d, e]) ∨
      (∃ i trans, c = .named i ∧ env.defs[i]? = some (.tuple (ps.map (·.1)) trans)) →
      (∀ p ∈ ps, RRearranged env B p.1 p.2.1 p.2.2) →
      RRearranged env B c (.tuple (ps.map (·.2.1)) tr) (.tuple (ps.map (·.2.2)) tr')
  | map {c k t tr tr'} (ps : List ((RTree × RTree) × (RTree × RTree))) : c = .hmap k t ∨ c = .bmap k t →
      (∀ p ∈ ps, RRearranged env B k p.1.1 p.1.2) → (∀ p ∈ ps, RRearranged env B t p.2.1 p.2.2) →
      RRearranged env B c (.map (ps.map fun p => (p.1.1, p.2.1)) tr) (.map (ps.map fun p => (p.1.2, p.2.2)) tr')
  | struct {i fs cd nul tr tr'} (ms ms' : List (List Char × RTree)) (ps : List (List Char × RTree × RTree)) :
      env.defs[i]? = some (.struct fs cd nul) → ps.Pairwise (fun p q => p.1 ≠ q.1) →
      ms.Perm (ps.map fun p => (p.1, p.2.1)) → ms'.Perm (ps.map fun p => (p.1, p.2.2)) →
      (∀ p ∈ ps, ∀ f ∈ fs, f.skip = false → f.jsonName = p.1 → RRearranged env B f.ty p.2.1 p.2.2) →
      RRearranged env B (.named i) (.fields ms tr) (.fields ms' tr')
  | structVariant {i j : Nat} {vars fs w tr tr'} {var : Variant} (ms ms' : List (List Char × RTree))
      (ps : List (List Char × RTree × RTree)) : env.defs[i]? = some (.enum vars) → VariantCalled vars w j var →
      var.shape = .named fs → ps.Pairwise (fun p q => p.1 ≠ q.1) →
      ms.Perm (ps.map fun p => (p.1, p.2.1)) → ms'.Perm (ps.map fun p => (p.1, p.2.2)) →
      (∀ p ∈ ps, ∀ f ∈ fs, f.skip = false → f.jsonName = p.1 → RRearranged env B f.ty p.2.1 p.2.2) →
      RRearranged env B (.named i) (.ctor w (.fields ms tr)) (.ctor w (.fields ms' tr'))
  | tupleVariant {i j : Nat} {vars w tr tr'} {var : Variant} (ps : List (Ty × RTree × RTree)) :
      env.defs[i]? = some (.enum vars) → VariantCalled vars w j var → var.shape = .tuple (ps.map (·.1)) →
      (∀ p ∈ ps, RRearranged env B p.1 p.2.1 p.2.2) →
      RRearranged env B (.named i) (.ctor w (.tuple (ps.map (·.2.1)) tr)) (.ctor w (.tuple (ps.map (·.2.2)) tr'))
  | dropNone {i fs cd nul tr tr'} {f : Field} (a b : List (List Char × RTree)) : env.defs[i]? = some (.struct fs cd nul) →
      f ∈ fs → f.NoneIsAbsent cd → (∀ m ∈ a ++ b, m.1 ≠ f.jsonName) →
      RRearranged env B (.named i) (.fields (a ++ (f.jsonName, .word ['N', 'o', 'n', 'e']) :: b) tr) (.fields (a ++ b) tr')
  | addNone {i fs cd nul tr tr'} {f : Field} (a b : List (List Char × RTree)) : env.defs[i]? = some (.struct fs cd nul) →
      f ∈ fs → f.NoneIsAbsent cd → (∀ m ∈ a ++ b, m.1 ≠ f.jsonName) →
      RRearranged env B (.named i) (.fields (a ++ b) tr) (.fields (a ++ (f.jsonName, .word ['N', 'o', 'n', 'e']) :: b) tr')
  | dropNoneVariant {i j : Nat} {vars fs w tr tr'} {var : Variant} {f : Field} (a b : List (List Char × RTree)) :
      env.defs[i]? = some (.enum vars) → VariantCalled vars w j var → var.shape = .named fs →
      f ∈ fs → f.NoneIsAbsent false → (∀ m ∈ a ++ b, m.1 ≠ f.jsonName) →
      RRearranged env B (.named i) (.ctor w (.fields (a ++ (f.jsonName, .word ['N', 'o', 'n', 'e']) :: b) tr))
        (.ctor w (.fields (a ++ b) tr'))
  | addNoneVariant {i j : Nat} {vars fs w tr tr'} {var : Variant} {f : Field} (a b : List (List Char × RTree)) :
      env.defs[i]? = some (.enum vars) → VariantCalled vars w j var → var.shape = .named fs →
      f ∈ fs → f.NoneIsAbsent false → (∀ m ∈ a ++ b, m.1 ≠ f.jsonName) →
      RRearranged env B (.named i) (.ctor w (.fields (a ++ b) tr))
        (.ctor w (.fields (a ++ (f.jsonName, .word ['N', 'o', 'n', 'e']) :: b) tr'))
  | bset {t xs ys tr tr'} : xs.Perm ys → RRearranged env B (.bset t) (.list xs tr) (.list ys tr')
  | bmap {t tr tr'} (ms ms' : List (List Char × RTree)) : ms.Perm ms' → ms.Pairwise (fun m n => m.1 ≠ n.1) →
      RRearranged env B (.bmap .str t) (.map (ms.map fun m => (.str m.1, m.2)) tr) (.map (ms'.map fun m => (.str m.1, m.2)) tr')

end NS
