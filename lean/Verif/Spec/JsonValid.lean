import Verif.Spec.JsonSafe
import Verif.Spec.Rfc8259
/-!
# Conditions under which the JSON output is RFC 8259

Each condition excludes something for which `Verif/Props/JsonValid.lean` has a counterexample.
-/
namespace NS

/-- A name that is an RFC 8259 string when written raw between quotes. -/
def RfcName (s : List Char) : Prop := ∀ c ∈ s, c ≠ '"' ∧ c ≠ '\\' ∧ 0x20 ≤ c.toNat

/-- The names in a definition can be written raw. -/
def RfcDefOk : Def → Prop
  | .struct fs _ _ => ∀ f ∈ fs, f.skip = false → RfcName (f.rename.getD f.name)
  | .tuple _ _ => True
  | .enum vars => ∀ v ∈ vars, RfcName (v.rename.getD v.name) ∧
      ∀ fs, v.shape = .named fs → ∀ f ∈ fs, RfcName f.name

/-- All definitions. -/
def RfcEnvOk (env : Env) : Prop := ∀ (i : Nat) d, env.defs[i]? = some d → RfcDefOk d

/-- Is the field not written because it is an `Option` holding `None`? -/
def Omitted (p : Field × Val) : Prop := p.1.optSyn = true ∧ p.2 = .none

/-- Types whose values are always written as strings. -/
inductive StringTy (env : Env) : Ty → Prop where
  | str : StringTy env .str
  | box {t} : StringTy env t → StringTy env (.box t)
  | units {i vars} : env.defs[i]? = some (.enum vars) → (∀ v ∈ vars, v.shape = .unit) → StringTy env (.named i)
  | proxied {i px} : env.proxies[i]? = some px → StringTy env px.ty → StringTy env (.proxied i)
  | newtype {i t} : env.defs[i]? = some (.tuple [t] true) → StringTy env t → StringTy env (.named i)

/-- What must hold of each component: finite floats; maps have keys written as strings; in a struct
variant a last field is not omitted after one that was written. -/
def RfcNodeOk (env : Env) (t : Ty) (w : Val) : Prop :=
  (∀ x, w = .f64 x → finite64 x) ∧ (∀ x, w = .f32 x → finite32 x) ∧
  (∀ k t', t = .hmap k t' ∨ t = .bmap k t' → w ≠ .seq [] → StringTy env k) ∧
  (∀ i vars j v fs vs, t = .named i → env.defs[i]? = some (.enum vars) → vars[j]? = some v →
    v.shape = .named fs → w = .variant j vs → ∀ p, (fs.zip vs).getLast? = some p → Omitted p →
      ∀ q ∈ fs.zip vs, Omitted q)

/-- Values whose JSON output is RFC 8259; skipped fields hold their default (they are not
written, see `SkipEq`). -/
def RfcExact (env : Env) (t : Ty) (v : Val) : Prop :=
  Holds env (RfcNodeOk env) Field.absent false t v

end NS
