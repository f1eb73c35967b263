import Verif.Model.Json
/-!
# Texts that are one line

Names of fields and variants are written as they are, so the statements assume them free of control
characters (identifiers are; a `rename = "…"` need not be).
-/
namespace NS

/-- Below U+0020, or DEL. -/
def isControl (c : Char) : Prop := c.toNat < 32 ∨ c.toNat = 127

/-- The names of a definition: its fields and variants, in the source and renamed. -/
def Field.names (f : Field) : List (List Char) := f.name :: f.rename.toList
/-- See `Field.names`. -/
def Variant.names (v : Variant) : List (List Char) := v.name :: v.rename.toList ++
  match v.shape with
  | .named fs => fs.flatMap Field.names
  | _ => []
/-- See `Field.names`. -/
def Def.names : Def → List (List Char)
  | .struct fs _ _ => fs.flatMap Field.names
  | .tuple _ _ => []
  | .enum vars => vars.flatMap Variant.names

/-- No name of the program contains a control character. -/
def NamesPrintable (env : Env) : Prop := ∀ d ∈ env.defs, ∀ nm ∈ d.names, ∀ c ∈ nm, ¬ isControl c

/-- The lines of a text in which every line ends with a newline (what follows the last newline is dropped). -/
def linesOf (acc : List Char) : List Char → List (List Char)
  | [] => []
  | c :: r => if c = '\n' then acc :: linesOf [] r else linesOf (acc ++ [c]) r

end NS
