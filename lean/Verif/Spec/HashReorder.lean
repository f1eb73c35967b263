import Verif.Spec.Reorder
/-!
# JSON values that differ, at any depth, in the order of what is read into hash containers
-/
namespace NS

/-- `JRehashed env t J J'`: read at the type `t`, the JSON values `J` and `J'` differ, at any depth, only in the
order of the elements of `HashSet`s, in the order of the entries of `HashMap<String, _>`s (and `BTreeMap<String, _>`s)
without repeated keys, and in trailing commas. -/
inductive JRehashed (env : Env) : Ty → JTree → JTree → Prop where
  | refl {t J} : JRehashed env t J J
  | hset {t xs ys tr tr'} : xs.Perm ys → JRehashed env (.hset t) (.arr xs tr) (.arr ys tr')
  | hmap {t tr tr'} (ms : List (List Char × JTree)) (ps : List (List Char × JTree × JTree)) :
      ps.Pairwise (fun p q => p.1 ≠ q.1) → (ps.map fun p => (p.1, p.2.2)).Perm ms →
      (∀ p ∈ ps, JRehashed env t p.2.1 p.2.2) →
      JRehashed env (.hmap .str t) (.obj (objMembers (ps.map fun p => (p.1, p.2.1))) tr) (.obj (objMembers ms) tr')
  | bmap {t tr tr'} (ms : List (List Char × JTree)) (ps : List (List Char × JTree × JTree)) :
      ps.Pairwise (fun p q => p.1 ≠ q.1) → (ps.map fun p => (p.1, p.2.2)).Perm ms →
      (∀ p ∈ ps, JRehashed env t p.2.1 p.2.2) →
      JRehashed env (.bmap .str t) (.obj (objMembers (ps.map fun p => (p.1, p.2.1))) tr) (.obj (objMembers ms) tr')
  | option {t J J'} : JRehashed env t J J' → JRehashed env (.option t) J J'
  | box {t J J'} : JRehashed env t J J' → JRehashed env (.box t) J J'
  | seq {c t tr tr'} (ps : List (JTree × JTree)) : c = .vec t ∨ c = .linked t ∨ c = .array t ps.length →
      (∀ p ∈ ps, JRehashed env t p.1 p.2) → JRehashed env c (.arr (ps.map (·.1)) tr) (.arr (ps.map (·.2)) tr')
  | tuple {c tr tr'} (ps : List (Ty × JTree × JTree)) :
      (∃ a b, c = .pair a b ∧ ps.map (·.1) = [a, b]) ∨ (∃ a b d, c = .triple a b d ∧ ps.map (·.1) = [a, b, d]) ∨
      (∃ a b d e, c = .quad a b d e ∧ ps.map (·.1) = [a, b, d, e]) ∨
      (∃ i trans, c = .named i ∧ env.defs[i]? = some (.tuple (ps.map (·.1)) trans) ∧ 2 ≤ ps.length) →
      (∀ p ∈ ps, JRehashed env p.1 p.2.1 p.2.2) →
      JRehashed env c (.arr (ps.map (·.2.1)) tr) (.arr (ps.map (·.2.2)) tr')
  | transparent {i t J J'} : env.defs[i]? = some (.tuple [t] true) → JRehashed env t J J' → JRehashed env (.named i) J J'
  | newtype {i t J J'} : env.defs[i]? = some (.tuple [t] false) → JRehashed env t J J' →
      JRehashed env (.named i) (.arr [J] false) (.arr [J'] false)
  | struct {i fs cd nul tr tr'} (ps : List (List Char × JTree × JTree)) : env.defs[i]? = some (.struct fs cd nul) →
      (∀ p ∈ ps, ∀ f ∈ fs, f.skip = false → f.jsonName = p.1 → JRehashed env f.readTy p.2.1 p.2.2) →
      JRehashed env (.named i) (.obj (objMembers (ps.map fun p => (p.1, p.2.1))) tr)
        (.obj (objMembers (ps.map fun p => (p.1, p.2.2))) tr')
  | structVariant {i j : Nat} {vars fs tr tr'} {var : Variant} (ps : List (List Char × JTree × JTree)) :
      env.defs[i]? = some (.enum vars) → vars[j]? = some var → var.shape = .named fs →
      (∀ p ∈ ps, ∀ f ∈ fs, f.skip = false → f.jsonName = p.1 → JRehashed env f.readTy p.2.1 p.2.2) →
      JRehashed env (.named i) (.obj [(.str var.jsonName, .obj (objMembers (ps.map fun p => (p.1, p.2.1))) tr)] false)
        (.obj [(.str var.jsonName, .obj (objMembers (ps.map fun p => (p.1, p.2.2))) tr')] false)
  | tupleVariant {i j : Nat} {vars tr tr'} {var : Variant} (ps : List (Ty × JTree × JTree)) : env.defs[i]? = some (.enum vars) →
      vars[j]? = some var → var.shape = .tuple (ps.map (·.1)) →
      (∀ p ∈ ps, JRehashed env p.1 p.2.1 p.2.2) →
      JRehashed env (.named i) (.obj [(.str var.jsonName, .arr (ps.map (·.2.1)) tr)] false)
        (.obj [(.str var.jsonName, .arr (ps.map (·.2.2)) tr')] false)

end NS
