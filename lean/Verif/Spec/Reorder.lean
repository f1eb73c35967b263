import Verif.Spec.JsonMeans
/-!
# JSON values that differ, at any depth, in the order of object members and in members nobody reads
-/
namespace NS

/-- `us` are members that no field of `fs` reads. -/
def NobodyReads (fs : List Field) (us : List (List Char × JTree)) : Prop :=
  ∀ u ∈ us, ∀ f ∈ fs, f.skip = false → f.jsonName ≠ u.1

/-- The object members with these names. -/
def objMembers (ms : List (List Char × JTree)) : List (JTree × JTree) := ms.map fun m => (.str m.1, m.2)

/-- An `Option` field, without `proxy`, that is `None` when it is absent (and may be). -/
def Field.NullIsAbsent (cd : Bool) (f : Field) : Prop :=
  f.skip = false ∧ f.optProxy = false ∧ (∃ t, f.ty = .option t) ∧ f.mayBeAbsent cd ∧ f.absentValue = .none

/-- `J` and `J'` are read alike at the type `t`: both or none is `null`, and they mean the same. -/
def JReadAlike (env : Env) (fl : FloatOps) (t : Ty) (J J' : JTree) : Prop :=
  (J = .null ↔ J' = .null) ∧ ∀ v, JsonMeans env fl t J v ↔ JsonMeans env fl t J' v

/-- No values are swapped. -/
def NoSwap {α : Type} : Ty → α → α → Prop := fun _ _ _ => False

/-- `JRearranged env B t J J'`: read at the type `t`, the JSON values `J` and `J'` differ, at any depth, only in the
order of the members of objects that are read as structs (or struct variants, or durations, or maps
`BTreeMap<String, _>` without repeated keys), in the order of the elements of `BTreeSet`s, in members of structs
that belong to no field, in trailing commas of arrays and objects, (`dropNull`, one object at a time) in members
`null` of `Option` fields, and in parts swapped as `B` allows (`NoSwap`: none). -/
inductive JRearranged (env : Env) (B : Ty → JTree → JTree → Prop) : Ty → JTree → JTree → Prop where
  | refl {t J} : JRearranged env B t J J
  | swap {t J J'} : B t J J' → JRearranged env B t J J'
  | dur {a b tr tr'} : JRearranged env B .dur (.obj [a, b] tr) (.obj [b, a] tr')
  | time {a b tr tr'} : JRearranged env B .time (.obj [a, b] tr) (.obj [b, a] tr')
  | option {t J J'} : JRearranged env B t J J' → JRearranged env B (.option t) J J'
  | box {t J J'} : JRearranged env B t J J' → JRearranged env B (.box t) J J'
  | seq {c t tr tr'} (ps : List (JTree × JTree)) : c = .vec t ∨ c = .linked t ∨ c = .hset t ∨ c = .bset t ∨ c = .array t ps.length →
      (∀ p ∈ ps, JRearranged env B t p.1 p.2) → JRearranged env B c (.arr (ps.map (·.1)) tr) (.arr (ps.map (·.2)) tr')
  | tuple {c tr tr'} (ps : List (Ty × JTree × JTree)) :
      (∃ a b, c = .pair a b ∧ ps.map (·.1) = [a, b]) ∨ (∃ a b d, c = .triple a b d ∧ ps.map (·.1) = [a, b, d]) ∨
      (∃ a b d e, c = .quad a b d e ∧ ps.map (·.1) = [a, b, d, e]) ∨
      (∃ i trans, c = .named i ∧ env.defs[i]? = some (.tuple (ps.map (·.1)) trans) ∧ 2 ≤ ps.length) →
      (∀ p ∈ ps, JRearranged env B p.1 p.2.1 p.2.2) →
      JRearranged env B c (.arr (ps.map (·.2.1)) tr) (.arr (ps.map (·.2.2)) tr')
  | map {c k t tr tr'} (ps : List ((JTree × JTree) × (JTree × JTree))) : c = .hmap k t ∨ c = .bmap k t →
      (∀ p ∈ ps, JRearranged env B k p.1.1 p.1.2) → (∀ p ∈ ps, JRearranged env B t p.2.1 p.2.2) →
      JRearranged env B c (.obj (ps.map fun p => (p.1.1, p.2.1)) tr) (.obj (ps.map fun p => (p.1.2, p.2.2)) tr')
  | transparent {i t J J'} : env.defs[i]? = some (.tuple [t] true) → JRearranged env B t J J' →
      JRearranged env B (.named i) J J'
  | newtype {i t J J'} : env.defs[i]? = some (.tuple [t] false) → JRearranged env B t J J' →
      JRearranged env B (.named i) (.arr [J] false) (.arr [J'] false)
  | struct {i fs cd nul tr tr'} (ms ms' : List (List Char × JTree)) (ps : List (List Char × JTree × JTree))
      (us us' : List (List Char × JTree)) : env.defs[i]? = some (.struct fs cd nul) → fs ≠ [] →
      ps.Pairwise (fun p q => p.1 ≠ q.1) →
      ms.Perm (ps.map (fun p => (p.1, p.2.1)) ++ us) → ms'.Perm (ps.map (fun p => (p.1, p.2.2)) ++ us') →
      NobodyReads fs us → NobodyReads fs us' →
      (∀ p ∈ ps, ∀ f ∈ fs, f.skip = false → f.jsonName = p.1 → JRearranged env B f.readTy p.2.1 p.2.2) →
      JRearranged env B (.named i) (.obj (objMembers ms) tr) (.obj (objMembers ms') tr')
  | structVariant {i j : Nat} {vars fs tr tr'} {var : Variant} (ms ms' : List (List Char × JTree)) (ps : List (List Char × JTree × JTree))
      (us us' : List (List Char × JTree)) : env.defs[i]? = some (.enum vars) → vars[j]? = some var → var.shape = .named fs →
      fs ≠ [] → ps.Pairwise (fun p q => p.1 ≠ q.1) →
      ms.Perm (ps.map (fun p => (p.1, p.2.1)) ++ us) → ms'.Perm (ps.map (fun p => (p.1, p.2.2)) ++ us') →
      NobodyReads fs us → NobodyReads fs us' →
      (∀ p ∈ ps, ∀ f ∈ fs, f.skip = false → f.jsonName = p.1 → JRearranged env B f.readTy p.2.1 p.2.2) →
      JRearranged env B (.named i) (.obj [(.str var.jsonName, .obj (objMembers ms) tr)] false)
        (.obj [(.str var.jsonName, .obj (objMembers ms') tr')] false)
  | tupleVariant {i j : Nat} {vars tr tr'} {var : Variant} (ps : List (Ty × JTree × JTree)) : env.defs[i]? = some (.enum vars) →
      vars[j]? = some var → var.shape = .tuple (ps.map (·.1)) →
      (∀ p ∈ ps, JRearranged env B p.1 p.2.1 p.2.2) →
      JRearranged env B (.named i) (.obj [(.str var.jsonName, .arr (ps.map (·.2.1)) tr)] false)
        (.obj [(.str var.jsonName, .arr (ps.map (·.2.2)) tr')] false)
  | dropNull {i fs cd nul tr tr'} {f : Field} (a b : List (List Char × JTree)) : env.defs[i]? = some (.struct fs cd nul) →
      f ∈ fs → f.NullIsAbsent cd → (∀ m ∈ a ++ b, m.1 ≠ f.jsonName) →
      JRearranged env B (.named i) (.obj (objMembers (a ++ (f.jsonName, .null) :: b)) tr) (.obj (objMembers (a ++ b)) tr')
  | addNull {i fs cd nul tr tr'} {f : Field} (a b : List (List Char × JTree)) : env.defs[i]? = some (.struct fs cd nul) →
      f ∈ fs → f.NullIsAbsent cd → (∀ m ∈ a ++ b, m.1 ≠ f.jsonName) →
      JRearranged env B (.named i) (.obj (objMembers (a ++ b)) tr) (.obj (objMembers (a ++ (f.jsonName, .null) :: b)) tr')
  | dropNullVariant {i j : Nat} {vars fs tr tr'} {var : Variant} {f : Field} (a b : List (List Char × JTree)) :
      env.defs[i]? = some (.enum vars) → vars[j]? = some var → var.shape = .named fs →
      f ∈ fs → f.NullIsAbsent false → (∀ m ∈ a ++ b, m.1 ≠ f.jsonName) →
      JRearranged env B (.named i) (.obj [(.str var.jsonName, .obj (objMembers (a ++ (f.jsonName, .null) :: b)) tr)] false)
        (.obj [(.str var.jsonName, .obj (objMembers (a ++ b)) tr')] false)
  | addNullVariant {i j : Nat} {vars fs tr tr'} {var : Variant} {f : Field} (a b : List (List Char × JTree)) :
      env.defs[i]? = some (.enum vars) → vars[j]? = some var → var.shape = .named fs →
      f ∈ fs → f.NullIsAbsent false → (∀ m ∈ a ++ b, m.1 ≠ f.jsonName) →
      JRearranged env B (.named i) (.obj [(.str var.jsonName, .obj (objMembers (a ++ b)) tr)] false)
        (.obj [(.str var.jsonName, .obj (objMembers (a ++ (f.jsonName, .null) :: b)) tr')] false)
  | bset {t xs ys tr tr'} : xs.Perm ys → JRearranged env B (.bset t) (.arr xs tr) (.arr ys tr')
  | bmap {t tr tr'} (ms ms' : List (List Char × JTree)) : ms.Perm ms' → ms.Pairwise (fun m n => m.1 ≠ n.1) →
      JRearranged env B (.bmap .str t) (.obj (objMembers ms) tr) (.obj (objMembers ms') tr')
  | proxied {i px J J'} : env.proxies[i]? = some px → JRearranged env B px.ty J J' → JRearranged env B (.proxied i) J J'

end NS
