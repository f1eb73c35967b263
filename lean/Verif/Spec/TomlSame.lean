import Verif.Spec.TomlRead
/-!
# TOML documents that say the same
-/
namespace NS

/-- Every key is left with the same value. -/
def SameAssigned (as bs : List (List Char × Toml)) : Prop := ∀ k, lastAssigned k as = lastAssigned k bs

/-- The statements leave every key outside `[[..]]` tables with the same value, and under each name the same
number of `[[..]]` tables, which leave, one by one, every key with the same value. -/
def SameDoc (doc doc' : List Stmt) : Prop :=
  SameAssigned (assigns [] doc) (assigns [] doc') ∧
  ∀ n, Matching (fun t t' => SameAssigned t.2 t'.2) ((tables doc).filter fun t => t.1 == n) ((tables doc').filter fun t => t.1 == n)

/-- The parser gives the same answer to both texts: the same map, or a panic, or an error. -/
def SameAnswer (o : TomlOps) (txt txt' : List Char) : Prop :=
  (∀ m, TomlOk (fun n => parseToml o n txt) m ↔ TomlOk (fun n => parseToml o n txt') m) ∧
  (TomlPanics (fun n => parseToml o n txt) ↔ TomlPanics (fun n => parseToml o n txt')) ∧
  ((∃ why line col, TomlFails (fun n => parseToml o n txt) why line col) ↔
    ∃ why line col, TomlFails (fun n => parseToml o n txt') why line col)

/-- There is no `[[..]]` header among the statements. -/
def NoTables (doc : List Stmt) : Prop := ∀ n, Stmt.table n ∉ doc

/-- The statements do not begin in the middle of a section: the first is a header. -/
def BeginsWithHeader (doc : List Stmt) : Prop := ∀ k v, doc.head? ≠ some (.assign k v)

end NS
