import Verif.Spec.Basic
import Verif.Spec.Text
import Verif.Spec.JsonObject
/-!
# Conditions under which JSON represents a value exactly

Each condition excludes something for which the corresponding property theorem has a
counterexample (see `Verif/Props/`).
-/
namespace NS

/-- A name that can be written raw between quotes. -/
def PlainName (s : List Char) : Prop := ∀ c ∈ s, c ≠ '"' ∧ c ≠ '\\' ∧ c ≠ '\x00'

/-- The value of a field that is absent from the text. -/
def Field.absent (f : Field) : Val := f.dfltAttr.getD f.tyDefault

/-- Fields of a derived struct: names of written fields are plain and distinct; a `None` that is
not written (`Option` fields, unless `serialize_none_as_null`) is also the default.  (`optProxy`
implies `optSyn` by its meaning.) -/
structure JsonFieldsOk (nul : Bool) (fs : List Field) : Prop where
  plain : ∀ f ∈ fs, f.skip = false → PlainName f.jsonName
  distinct : (fs.filter fun f => !f.skip).Pairwise fun f g => f.jsonName ≠ g.jsonName
  optProxy : ∀ f ∈ fs, f.optProxy = true → f.optSyn = true
  omitted : ∀ f ∈ fs, f.skip = false → f.optSyn = true →
    ((f.noneAsNull || nul) = true ∧ f.optProxy = false) ∨ f.absent = .none

/-- Fields of a struct variant: in addition no `skip` and no `rename` (the writer ignores them, the
reader does not). -/
structure JsonVarFieldsOk (fs : List Field) : Prop where
  noSkip : ∀ f ∈ fs, f.skip = false
  noRename : ∀ f ∈ fs, f.rename = none
  plain : ∀ f ∈ fs, PlainName f.name
  distinct : fs.Pairwise fun f g => f.name ≠ g.name
  optProxy : ∀ f ∈ fs, f.optProxy = true → f.optSyn = true
  omitted : ∀ f ∈ fs, f.optSyn = true → f.absent = .none

/-- The name under which a variant is read and written. -/
def Variant.jsonName (v : Variant) : List Char := v.rename.getD v.name

/-- A definition that JSON represents faithfully. -/
def JsonDefOk : Def → Prop
  | .struct fs _ nul => JsonFieldsOk nul fs
  | .tuple _ _ => True
  | .enum vars => (∀ v ∈ vars, PlainName v.jsonName) ∧
      vars.Pairwise (fun v w => (v.shape = .unit ↔ w.shape = .unit) → v.jsonName ≠ w.jsonName) ∧
      ∀ v ∈ vars, ∀ fs, v.shape = .named fs → JsonVarFieldsOk fs

/-- All definitions. -/
def JsonEnvOk (env : Env) : Prop := ∀ (i : Nat) d, env.defs[i]? = some d → JsonDefOk d

/-- Values that JSON represents as `null`: `()`, `None`, an instant before the epoch, and those that
only wrap such a value. -/
inductive NullForm (env : Env) : Ty → Val → Prop where
  | unit : NullForm env .unit .unit
  | none {t} : NullForm env (.option t) .none
  | past {s n} : s < 0 → NullForm env .time (.time s n)
  | some {t v} : NullForm env t v → NullForm env (.option t) (.some v)
  | box {t v} : NullForm env t v → NullForm env (.box t) (.box v)
  | transparent {i t v vs} : env.defs[i]? = some (.tuple [t] true) → NullForm env t v →
      NullForm env (.named i) (.struct (v :: vs))
  | proxied {i px o p} : env.proxies[i]? = some px → NullForm env px.ty p → NullForm env (.proxied i) (.prox o p)

/-- What must hold of each component: integer types with JSON impls, finite floats, instants not
before the epoch, no `Some(v)` where `v` itself is represented as `null`. -/
def JsonNodeOk (env : Env) (t : Ty) (w : Val) : Prop :=
  (∀ k, t = .int k → k.textual = true) ∧
  (∀ x, w = .f64 x → finite64 x) ∧ (∀ x, w = .f32 x → finite32 x) ∧
  (∀ s n, w = .time s n → 0 ≤ s) ∧
  (∀ t' w', t = .option t' → w = .some w' → ¬ NullForm env t' w')

/-- Values that JSON represents exactly: every component is as above, skipped fields hold their
default. -/
def JsonExact (env : Env) (t : Ty) (v : Val) : Prop :=
  Holds env (JsonNodeOk env) Field.absent false t v

end NS
