import Verif.Spec.DeriveRead
import Verif.Model.DeriveGen

/-!
# The definition a declaration stands for (specification)

Read off the declaration itself: names, types, options.
-/

namespace NS.Derive
open NS

/-- The value of the first option `key = value`. -/
def firstVal (key : Txt) (os : List ROpt) : Option Txt :=
  (os.filterMap fun o =>
    match o with
    | .val n v => if n = key then some v.value else none
    | .flag _ => none).head?

/-- Is there an option that is just `key`? -/
def hasFlag (key : Txt) (os : List ROpt) : Bool :=
  os.any fun o =>
    match o with
    | .flag n => n = key
    | .val _ _ => false

/-- The first option `default` or `default = value`. -/
def firstDefault (os : List ROpt) : Option (Option Txt) :=
  (os.filterMap fun o =>
    match o with
    | .flag n => if n = "default".toList then some none else none
    | .val n v => if n = "default".toList then some (some v.value) else none).head?

/-- The options of a field. -/
def RField.opts (f : RField) : List ROpt := optsOf f.attrs

/-- Is the type `Option<..>`, as written? -/
def RTy.isOption (t : RTy) : Bool := t.head = "Option".toList

/-- Is the type `String`, or a generic type, tuple or array with the component `String`? -/
def RTy.mentionsString (t : RTy) : Bool :=
  t.head = "String".toList ∨ t.parts.any fun u => u.head = "String".toList

/-- The text of the default expression of a field.  `default = "v"` is the expression `v`, except
that for text types it is a string with the characters `v`; for `Option` it is wrapped in `Some`.
`text` says which types are text types. -/
def defaultText (text : RTy → Bool) (os : List ROpt) (t : RTy) : Option Txt :=
  match firstDefault os with
  | some (some v) =>
    let v := if text t then "\"".toList ++ v ++ "\".to_string()".toList else v
    some (if t.isOption then "Some(".toList ++ v ++ ")".toList else v)
  | some none => some (if t.isOption then "None".toList else "Default::default()".toList)
  | none => (firstVal "default_with".toList os).map (· ++ "()".toList)

/-- The types for which `default = ".."` is text: in JSON also `Option<String>`, `Vec<String>`, ...;
in RON only `String` itself. -/
def textType (fmt : Fmt) (t : RTy) : Bool :=
  match fmt with
  | .ron => t.head = "String".toList
  | _ => t.mentionsString

/-- The type a field is written as. -/
def fieldTy (N : Names) (fmt : Fmt) (os : List ROpt) (t : RTy) : Ty :=
  match fmt, firstVal "proxy".toList os with
  | .ron, _ => N.ty t.text
  | _, none => N.ty t.text
  | .json, some p =>
    if t.isOption then .option (.proxied (N.proxy t.text p)) else .proxied (N.proxy t.text p)
  | .bin, some p => .proxied (N.proxy t.text p)

/-- The definition of a named field. -/
def RField.toDef (N : Names) (fmt : Fmt) (f : RField) : Field where
  name := f.name
  ty := fieldTy N fmt f.opts f.ty
  rename := firstVal "rename".toList f.opts
  optSyn := f.ty.isOption
  skip := hasFlag "skip".toList f.opts
  noneAsNull := hasFlag "serialize_none_as_null".toList f.opts
  dfltAttr := (defaultText (textType fmt) f.opts f.ty).map (N.expr f.ty.text)
  tyDefault := N.dflt f.ty.text
  optProxy := fmt = .json ∧ f.ty.isOption ∧ (firstVal "proxy".toList f.opts).isSome

/-- A field of a struct variant: in the binary format `proxy` has no effect there. -/
def RField.toVariantDef (N : Names) (fmt : Fmt) (f : RField) : Field :=
  match fmt with
  | .bin => { f.toDef N .bin with ty := N.ty f.ty.text }
  | _ => f.toDef N fmt

/-- The type of a tuple field: only the binary format honours `proxy`. -/
def RTField.toTy (N : Names) (fmt : Fmt) (f : RTField) : Ty :=
  match fmt with
  | .bin => fieldTy N .bin (optsOf f.attrs) f.ty
  | _ => N.ty f.ty.text

/-- The definition a struct declaration stands for. -/
def RStruct.toDef (N : Names) (fmt : Fmt) (s : RStruct) : Def :=
  let os := optsOf s.attrs
  match s.body with
  | .named fs _ =>
    .struct (fs.map (RField.toDef N fmt))
      ((firstDefault os).isSome || (fmt ≠ .ron ∧ (firstVal "default_with".toList os).isSome))
      (hasFlag "serialize_none_as_null".toList os)
  | .tuple fs _ => .tuple (fs.map (RTField.toTy N fmt)) (hasFlag "transparent".toList os)
  | .unit => .tuple [] (hasFlag "transparent".toList os)

/-- The shape of a variant. -/
def RShape.toDef (N : Names) (fmt : Fmt) : RShape → Shape
  | .unit => .unit
  | .disc _ => .unit
  | .tuple ts => .tuple (ts.map fun t => N.ty t.text)
  | .named fs _ => .named (fs.map (RField.toVariantDef N fmt))

/-- A variant. -/
def RVariant.toDef (N : Names) (fmt : Fmt) (v : RVariant) : Variant :=
  { name := v.name, rename := firstVal "rename".toList (optsOf v.attrs), shape := v.shape.toDef N fmt }

/-- The definition an enum declaration stands for. -/
def REnum.toDef (N : Names) (fmt : Fmt) (e : REnum) : Def := .enum (e.variants.map (RVariant.toDef N fmt))

end NS.Derive
