import Verif.Spec.JsonSafe
import Verif.Spec.JsonMeans
import Verif.Spec.RonSafe
/-!
# Values that come out of a text reader

Conditions on the parts of a program that readers take over unseen: defaults, and conversions of proxies.
-/
namespace NS

/-- The same program on a machine without limits on the size of a single collection.  (`HasTy` also demands
that vectors and hash tables fit in memory.) -/
def Env.unlimited (env : Env) : Env := { env with memSize := fun _ => 0, hashCapPanics := fun _ _ => false }

mutual
/-- All floats in the value are finite. -/
def Val.floatsFinite : Val → Prop
  | .f32 x => finite32 x
  | .f64 x => finite64 x
  | .some v => v.floatsFinite
  | .box v => v.floatsFinite
  | .seq vs => floatsFiniteAll vs
  | .entry k v => k.floatsFinite ∧ v.floatsFinite
  | .struct vs => floatsFiniteAll vs
  | .variant _ vs => floatsFiniteAll vs
  | .prox _ p => p.floatsFinite
  | _ => True
/-- In all the values. -/
def floatsFiniteAll : List Val → Prop
  | [] => True
  | v :: vs => v.floatsFinite ∧ floatsFiniteAll vs
end

/-- `f` is a field of a struct of the program (`cd`: the struct has the option `default`), or of a struct
variant. -/
def FieldOf (env : Env) (cd : Bool) (f : Field) : Prop :=
  (∃ (i : Nat) (fs : List Field) (nul : Bool), env.defs[i]? = some (.struct fs cd nul) ∧ f ∈ fs) ∨
  (cd = false ∧ ∃ (i : Nat) (vars : List Variant) (v : Variant) (fs : List Field),
    env.defs[i]? = some (.enum vars) ∧ v ∈ vars ∧ v.shape = .named fs ∧ f ∈ fs)

/-- Defaults have the type of their field; converting from a proxy and back gives a value of the proxy's
type, and the same once more. -/
structure SaneText (env : Env) : Prop where
  absent : ∀ cd f, FieldOf env cd f → f.mayBeAbsent cd → HasTy env.unlimited f.ty f.absentValue
  proxies : ∀ (i : Nat) px p, env.proxies[i]? = some px → HasTy env.unlimited px.ty p →
    HasTy env.unlimited px.ty (px.into (px.back p)) ∧ px.back (px.into (px.back p)) = px.back p

/-- In addition, JSON represents the defaults; converting from a proxy and back does not leave the values
that JSON represents, nor give another value represented as `null`; a field `Option<T>` with a proxy has no
`Some` that is represented as `null`. -/
structure JsonSaneText (env : Env) : Prop extends SaneText env where
  absentExact : ∀ cd f, FieldOf env cd f → f.mayBeAbsent cd → f.skip = false →
    f.absentValue.floatsFinite → JsonExact env f.ty f.absentValue
  proxiesExact : ∀ (i : Nat) px p, env.proxies[i]? = some px → HasTy env.unlimited px.ty p →
    ((px.into (px.back p)).floatsFinite → p.floatsFinite) ∧
    (JsonExact env px.ty p → JsonExact env px.ty (px.into (px.back p))) ∧
    (NullForm env px.ty (px.into (px.back p)) → NullForm env px.ty p)
  optProxy : ∀ cd f, FieldOf env cd f → f.optProxy = true → ∀ v, ¬ NullForm env f.readTy v

/-- In addition, RON represents the defaults. -/
structure RonSaneText (env : Env) : Prop extends SaneText env where
  absentExact : ∀ cd f, FieldOf env cd f → f.mayBeAbsent cd → f.skip = false →
    f.absentValue.floatsFinite → RonExact env f.ty f.absentValue

end NS
