import Verif.Spec.JsonSafe
import Verif.Spec.JsonObject
/-!
# Which JSON values denote tuples, arrays and enums
-/
namespace NS

/-- `[T; N]` and tuples are read as one item for each of `ts`. -/
inductive FixedArity : Ty → List Ty → Prop where
  | array (t : Ty) (n : Nat) : FixedArity (.array t n) (List.replicate n t)
  | pair (a b : Ty) : FixedArity (.pair a b) [a, b]
  | triple (a b c : Ty) : FixedArity (.triple a b c) [a, b, c]
  | quad (a b c d : Ty) : FixedArity (.quad a b c d) [a, b, c, d]

/-- The object `ms` denotes the fields `vs` (of a struct, or of a struct variant). -/
def FieldsRead (env : Env) (fl : FloatOps) (cd : Bool) (fs : List Field) (ms : List (JTree × JTree)) (vs : List Val) : Prop :=
  MembersReadable env fl fs ms ∧ vs.length = fs.length ∧
    ∀ (i : Nat) f w, fs[i]? = some f → vs[i]? = some w → FieldValue env fl cd ms f w

/-- Unit variants have distinct names, and so have the others. -/
def DistinctVariants (vars : List Variant) : Prop :=
  vars.Pairwise fun v w => (v.shape = .unit ↔ w.shape = .unit) → v.jsonName ≠ w.jsonName

/-- The contents `vs` of a non-unit variant: an array for a tuple variant, an object for a struct
variant. -/
def ContentsRead (env : Env) (fl : FloatOps) (J : JTree) (vs : List Val) : Shape → Prop
  | .unit => False
  | .tuple ts => ∃ xs tr, J = .arr xs tr ∧ ItemsRead env fl ts xs vs
  | .named fs => ∃ ms tr, J = .obj ms tr ∧ FieldsRead env fl false fs ms vs

/-- `J` denotes the value `v` of a derived enum: a string with the name of a unit variant, or an
object with exactly one member (and no trailing comma), whose key is the name of another variant and
whose value is its contents. -/
inductive EnumReads (env : Env) (fl : FloatOps) (vars : List Variant) : JTree → Val → Prop where
  | unit {j : Nat} {var : Variant} : vars[j]? = some var → var.shape = .unit →
      EnumReads env fl vars (.str var.jsonName) (.variant j [])
  | other {j : Nat} {var : Variant} {J : JTree} {vs : List Val} : vars[j]? = some var →
      ContentsRead env fl J vs var.shape →
      EnumReads env fl vars (.obj [(.str var.jsonName, J)] false) (.variant j vs)

end NS
