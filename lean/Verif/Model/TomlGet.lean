import Verif.Model.Toml
/-!
# Model of the accessors of `Toml` (src/toml.rs:125-195)

`none` is a panic.
-/
namespace NS

/-- `map[key]` of a `BTreeMap<String, Toml>`: std's `Index` panics on a missing key. -/
def tomlAt (m : TMap) (key : List Char) : Option Toml := tGet key m

/-- `impl Index<usize> for Toml` (src/toml.rs:125-134); indexing the `Vec` panics out of bounds. -/
def Toml.index (i : Nat) : Toml → Option TMap
  | .array ts => ts[i]?
  | _ => none

/-- `Toml::num` (src/toml.rs:140-145). -/
def Toml.asNum : Toml → Option (BitVec 64)
  | .num x => some x
  | _ => none

/-- `Toml::str` (src/toml.rs:149-154). -/
def Toml.asStr : Toml → Option (List Char)
  | .str s => some s
  | _ => none

/-- `Toml::boolean` (src/toml.rs:158-163). -/
def Toml.asBool : Toml → Option Bool
  | .bool b => some b
  | _ => none

/-- `Toml::date` (src/toml.rs:169-174). -/
def Toml.asDate : Toml → Option (List Char)
  | .date s => some s
  | _ => none

/-- `Toml::arr` (src/toml.rs:178-183). -/
def Toml.asArr : Toml → Option (List TMap)
  | .array ts => some ts
  | _ => none

/-- `Toml::simple_arr` (src/toml.rs:187-192). -/
def Toml.asSimpleArr : Toml → Option (List Toml)
  | .simpleArray vs => some vs
  | _ => none

end NS
