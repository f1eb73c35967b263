import Verif.Spec.DeriveDecl
import Verif.Spec.Toml
import Verif.Model.DeriveHeader

/-!
# What it means that the derive macros have read a declaration correctly (specification)

The macros generate code from the parsed tree.  Of a type they use the text, the text without
generic arguments (`Option`, `String`) and those of the component types; of a field or variant its
name, its options and its type or components; of the generics the two header texts.
-/

namespace NS.Derive

/-- The tree `p` stands for the type expression `t`. -/
def TypeRead (t : RTy) (p : PType) : Prop :=
  p.full = t.text ∧ p.base = t.head ∧
  ∀ x, IdentLike x → (x ∈ (p.wraps.getD []).map PType.base ↔ x ∈ t.parts.map RTy.head)

/-- The options of a list of attributes, as lists of words. -/
def words (as : List RAttr) : List (List Txt) := (optsOf as).map ROpt.words

/-- The tree `p` stands for the named field `f`. -/
def FieldRead (f : RField) (p : PField) : Prop :=
  p.attributes = words f.attrs ∧ p.name = some f.name ∧ TypeRead f.ty p.ty

/-- The tree `p` stands for the tuple field `f`. -/
def TFieldRead (f : RTField) (p : PField) : Prop :=
  p.attributes = words f.attrs ∧ p.name = none ∧ TypeRead f.ty p.ty

/-- The tree `p` stands for the variant `v`. -/
def VariantRead (v : RVariant) (p : PField) : Prop :=
  p.attributes = words v.attrs ∧ p.name = some v.name ∧
  match v.shape with
  | .unit | .disc _ => p.ty.cat = .none ∧ p.ty.wraps = none
  | .tuple ts => ∃ ps, p.ty.cat = .tuple ps ∧ Matching TypeRead ts ps
  | .named fs _ => ∃ s, p.ty.cat = .anonymous s ∧ Matching FieldRead fs s.fields

/-- The tree `p` stands for the struct body `b`. -/
def BodyRead (b : RBody) (p : PStruct) : Prop :=
  match b with
  | .unit => p.named = false ∧ p.fields = []
  | .tuple fs _ => p.named = false ∧ Matching TFieldRead fs p.fields
  | .named fs _ => p.named = true ∧ Matching FieldRead fs p.fields

/-- A parameter with its bounds, in the generics of an `impl` of the trait `bound`:
`'a: 'b, ` or `T: A + B + krate::Trait, `. -/
def RGenerics.paramText (g : RGenerics) (bound : Txt) : RParam → Txt
  | .lifetime l [] => "'".toList ++ l ++ ":, ".toList
  | .lifetime l (b :: bs) =>
    "'".toList ++ l ++ ": ".toList ++ sepBy " + ".toList ((b :: bs).map fun b => "'".toList ++ b) ++ ", ".toList
  | .type n bs _ =>
    n ++ ": ".toList ++ sepBy " + ".toList ((bs ++ g.whereBounds n).map RTy.text ++ [bound]) ++ ", ".toList

/-- A parameter as an argument: `'a, ` or `T, `. -/
def RParam.argText : RParam → Txt
  | .lifetime l _ => "'".toList ++ l ++ ", ".toList
  | .type n _ _ => n ++ ", ".toList

/-- The generics of `impl<..> krate::Trait for Item<..>`. -/
def RGenerics.header (g : RGenerics) (trait krate : Txt) : Txt × Txt :=
  if g.params.isEmpty then ([], [])
  else
    ("<".toList ++ g.params.flatMap (g.paramText (krate ++ "::".toList ++ trait)) ++ ">".toList,
     "<".toList ++ g.params.flatMap RParam.argText ++ ">".toList)

/-- The parsed generics produce the right header for every trait and crate name. -/
def GenericsRead (g : RGenerics) (p : List Generic) : Prop :=
  ∀ trait krate, boundsStrings p trait krate = g.header trait krate

/-- The parser, run on `ts` with enough fuel, returns `d`. -/
def Parses (ts : List TT) (d : Data) : Prop := ∃ N, ∀ n, N ≤ n → parseItem n ts = .ok d []

end NS.Derive
