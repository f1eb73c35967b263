import Verif.Model.Toml
/-!
# How much a parsed TOML document holds (specification for C92)
-/
namespace NS

mutual
/-- How much a value holds: a number, boolean or array counts one, a string one and its characters, a date its
characters; arrays also count their elements, arrays of tables one for each table and the entries of the tables. -/
def Toml.weight : Toml → Nat
  | .str s => s.length + 1
  | .date s => s.length
  | .bool _ => 1
  | .num _ => 1
  | .simpleArray vs => 1 + tomlsWeight vs
  | .array ts => tablesWeight ts
/-- The sum over the elements of an array. -/
def tomlsWeight : List Toml → Nat
  | [] => 0
  | v :: vs => v.weight + tomlsWeight vs
/-- The sum over tables, each counting one and its entries. -/
def tablesWeight : List (List (List Char × Toml)) → Nat
  | [] => 0
  | m :: ts => 1 + entriesWeight m + tablesWeight ts
/-- The sum over entries, each counting one and its value (but not its key). -/
def entriesWeight : List (List Char × Toml) → Nat
  | [] => 0
  | (_, v) :: m => 1 + v.weight + entriesWeight m
end

end NS
