import Verif.Spec.Basic
import Verif.Spec.RonMeans
/-!
# Conditions under which RON represents a value exactly

Each condition excludes something for which the corresponding property theorem has a
counterexample (see `Verif/Props/`).
-/
namespace NS

/-- An identifier other than `true` and `false`. -/
def RonName (s : List Char) : Prop := RWord s ∧ NotBool s

/-- Fields of a derived struct: names of written fields are distinct identifiers; a `None` that is
not written is also the default. -/
structure RonFieldsOk (fs : List Field) : Prop where
  names : ∀ f ∈ fs, f.skip = false → RonName f.jsonName
  distinct : DistinctNames fs
  omitted : ∀ f ∈ fs, f.skip = false → f.optSyn = true → f.absentValue = .none

/-- A definition that RON represents faithfully.  In struct variants no `skip` and no `rename` (the
writer ignores them, the reader does not). -/
def RonDefOk : Def → Prop
  | .struct fs _ _ => RonFieldsOk fs
  | .tuple _ _ => True
  | .enum vars => (∀ v ∈ vars, RonName v.name) ∧ vars.Pairwise (fun v w => v.name ≠ w.name) ∧
      ∀ v ∈ vars, ∀ fs, v.shape = .named fs → RonFieldsOk fs ∧ ∀ f ∈ fs, f.skip = false ∧ f.rename = none

/-- All definitions. -/
def RonEnvOk (env : Env) : Prop := ∀ (i : Nat) d, env.defs[i]? = some d → RonDefOk d

/-- Values whose RON text starts with the word `None`: `None`, an instant before the epoch, enum
variants called `None`, and those that only wrap such a value. -/
inductive NoneForm (env : Env) : Ty → Val → Prop where
  | none {t} : NoneForm env (.option t) .none
  | past {s n} : s < 0 → NoneForm env .time (.time s n)
  | variant {i vars j var vs} : env.defs[i]? = some (.enum vars) → vars[j]? = some var →
      var.name = ['N', 'o', 'n', 'e'] → NoneForm env (.named i) (.variant j vs)
  | some {t v} : NoneForm env t v → NoneForm env (.option t) (.some v)
  | box {t v} : NoneForm env t v → NoneForm env (.box t) (.box v)
  | proxied {i px o p} : env.proxies[i]? = some px → NoneForm env px.ty p → NoneForm env (.proxied i) (.prox o p)

/-- What must hold of each component: integer types with RON impls, finite floats, instants not
before the epoch, no `Some(v)` where the text of `v` itself starts with `None`; not a type with a
`proxy` (these have no RON reader). -/
def RonNodeOk (env : Env) (t : Ty) (w : Val) : Prop :=
  (∀ k, t = .int k → k.textual = true) ∧
  (∀ x, w = .f64 x → finite64 x) ∧ (∀ x, w = .f32 x → finite32 x) ∧
  (∀ s n, w = .time s n → 0 ≤ s) ∧
  (∀ t' w', t = .option t' → w = .some w' → ¬ NoneForm env t' w') ∧
  (∀ i, t ≠ .proxied i)

/-- Values that RON represents exactly: every component is as above, skipped fields hold their
default. -/
def RonExact (env : Env) (t : Ty) (v : Val) : Prop :=
  Holds env (RonNodeOk env) Field.absentValue false t v

end NS
