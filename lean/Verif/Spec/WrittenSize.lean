import Verif.Model.Json
import Verif.Spec.OneLine
/-!
# How much there is to write
-/
namespace NS

mutual
/-- The number of parts of a value.  Everything counts one, and besides: a string its characters, a number its
decimal digits, containers, tuples, structs and variants what is in them.  Of a value behind a proxy the proxy
is counted, which is what is written. -/
def Val.parts : Val → Nat
  | .unit | .bool _ | .f32 _ | .f64 _ | .none => 1
  | .int i => 1 + (showInt i).length
  | .str s => 1 + s.length
  | .dur s n => 1 + (showNat s).length + (showNat n).length
  | .time s n => 1 + (showNat s.toNat).length + (showNat n).length
  | .some v | .box v => 1 + v.parts
  | .seq vs | .struct vs | .variant _ vs => 1 + partsAll vs
  | .entry k v => 1 + k.parts + v.parts
  | .prox _ p => 1 + p.parts
/-- The sum over a list. -/
def partsAll : List Val → Nat
  | [] => 0
  | v :: vs => v.parts + partsAll vs
end

/-- No name of a field or variant of the program (in the source or given by `rename`) is longer than `K`. -/
def NamesWithin (env : Env) (K : Nat) : Prop := ∀ d ∈ env.defs, ∀ nm ∈ d.names, nm.length ≤ K

/-- No float is written with more than `F` characters. -/
def FloatsWithin (fl : FloatOps) (F : Nat) : Prop := (∀ x, (fl.show64 x).length ≤ F) ∧ ∀ x, (fl.show32 x).length ≤ F

end NS
