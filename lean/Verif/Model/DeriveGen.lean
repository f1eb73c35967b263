import Verif.Model.DeriveHeader
import Verif.Model.Base

/-!
# What the derive macros make of a parsed item (`derive/src/serde_*.rs`, `derive/src/lib.rs`)

The generators write Rust text.  The run-time behaviour of that text is what `Model/Bin`,
`Model/Json` and `Model/Ron` describe, for a definition (`NS.Def`) that lists the fields with the
attributes the generators looked up.  This file models those look-ups: from the parsed item to the
definition.  The meaning of type names and of expressions in the user's crate is a parameter.
-/

namespace NS.Derive
open NS

/-- The three formats. -/
inductive Fmt where
  | bin | json | ron
deriving DecidableEq, Repr

/-- What texts mean in the user's crate: a type, the proxy of a type (an index into
`Env.proxies`), the value of an expression at a type, `Default::default()` at a type. -/
structure Names where
  ty : Txt → Ty
  proxy : Txt → Txt → Nat
  expr : Txt → Txt → Val
  dflt : Txt → Val

/-- `format!("\"{}\".to_string()", val)`. -/
def quoted (v : Txt) : Txt := "\"".toList ++ v ++ "\".to_string()".toList
/-- `format!("Some({})", val)`. -/
def someOf (v : Txt) : Txt := "Some(".toList ++ v ++ ")".toList

/-- derive/src/serde_json.rs:152-178: the default expression of a field. -/
def jsonDefault (f : PField) : Option Txt :=
  match attrsDefault f.attributes with
  | some (some val) =>
    let val := if f.ty.base = "String".toList ∨
        (f.ty.wraps.getD []).any (fun t => t.base = "String".toList) then quoted val else val
    some (if f.ty.base = "Option".toList then someOf val else val)
  | some none =>
    some (if f.ty.base ≠ "Option".toList then "Default::default()".toList else "None".toList)
  | none =>
    match attrsDefaultWith f.attributes with
    | some v => some (v ++ "()".toList)
    | none => none

/-- derive/src/serde_ron.rs:158-181: the default expression of a field that has a `default` or
`default_with` option.  (The last arm of that code, `Default::default()` for skipped and optional
fields, is part of `NS.deRon`.) -/
def ronDefault (f : PField) : Option Txt :=
  match attrsDefault f.attributes with
  | some (some val) =>
    some (if f.ty.base = "String".toList then quoted val
      else if f.ty.base = "Option".toList then someOf val else val)
  | some none =>
    some (if f.ty.base ≠ "Option".toList then "Default::default()".toList else "None".toList)
  | none =>
    match attrsDefaultWith f.attributes with
    | some v => some (v ++ "()".toList)
    | none => none

/-- The type a field is written and read as: its own, or through a proxy
(derive/src/serde_json.rs:30-42, 186-194; derive/src/serde_bin.rs:41-58, 127-146; the RON
generators do not look at `proxy`). -/
def elabTy (N : Names) (fmt : Fmt) (f : PField) : Ty :=
  match fmt, attrsProxy f.attributes with
  | .ron, _ => N.ty f.ty.full
  | _, none => N.ty f.ty.full
  | .json, some p =>
    if f.ty.base = "Option".toList then .option (.proxied (N.proxy f.ty.full p))
    else .proxied (N.proxy f.ty.full p)
  | .bin, some p => .proxied (N.proxy f.ty.full p)

/-- A named field as the generators see it (derive/src/serde_json.rs:51-58, 147-196,
derive/src/serde_ron.rs:48-58, 150-200, derive/src/serde_bin.rs:40-58). -/
def elabField (N : Names) (fmt : Fmt) (f : PField) : Field where
  name := f.name.getD []
  ty := elabTy N fmt f
  rename := attrsRename f.attributes
  optSyn := f.ty.base = "Option".toList
  skip := attrsSkip f.attributes
  noneAsNull := attrsNoneAsNull f.attributes
  dfltAttr := (match fmt with
    | .ron => ronDefault f
    | _ => jsonDefault f).map (N.expr f.ty.full)
  tyDefault := N.dflt f.ty.full
  optProxy := fmt = .json ∧ f.ty.base = "Option".toList ∧ (attrsProxy f.attributes).isSome

/-- The type of a field of a tuple struct: only the binary generators look at `proxy`
(derive/src/serde_bin.rs:78-100, 168-200; derive/src/serde_json.rs:547-580). -/
def elabTupleTy (N : Names) (fmt : Fmt) (f : PField) : Ty :=
  match fmt with
  | .bin => elabTy N .bin f
  | _ => N.ty f.ty.full

/-- A field of a struct variant: the binary generators look at no option of it
(derive/src/serde_bin.rs:279-300, 356-370), the others at the same options as in a struct. -/
def elabVariantField (N : Names) (fmt : Fmt) (f : PField) : Field :=
  match fmt with
  | .bin => { elabField N .bin f with ty := N.ty f.ty.full }
  | _ => elabField N fmt f

/-- The `match &variant.ty` of every enum generator (e.g. derive/src/serde_json.rs:312-420);
any other type is `unimplemented!`. -/
def elabShape (N : Names) (fmt : Fmt) (t : PType) : Option Shape :=
  match t.cat, t.wraps with
  | .none, none => some .unit
  | .anonymous s, _ => some (.named (s.fields.map (elabVariantField N fmt)))
  | .tuple ts, _ => some (.tuple (ts.map fun t => N.ty t.full))
  | _, _ => none

/-- A variant (the RON generators ignore `rename` on variants, see `NS.deRon`). -/
def elabVariant (N : Names) (fmt : Fmt) (v : PField) : Option Variant :=
  (elabShape N fmt v.ty).map fun s => { name := v.name.getD [], rename := attrsRename v.attributes, shape := s }

/-- A struct: derive/src/lib.rs:41-46 (and the other entry points) picks the generator by `named`;
the container options are those of derive/src/serde_json.rs:62, 278-279, 535 and
derive/src/serde_ron.rs:145. -/
def elabStruct (N : Names) (fmt : Fmt) (s : PStruct) : Def :=
  if s.named then
    .struct (s.fields.map (elabField N fmt))
      ((attrsDefault s.attributes).isSome ||
        (match fmt with
         | .ron => false
         | _ => (attrsDefaultWith s.attributes).isSome))
      (attrsNoneAsNull s.attributes)
  else .tuple (s.fields.map (elabTupleTy N fmt)) (attrsTransparent s.attributes)

/-- All results, or none. -/
def allSome {α : Type} : List (Option α) → Option (List α)
  | [] => some []
  | x :: xs => x.bind fun a => (allSome xs).map (a :: ·)

/-- An item. -/
def elabData (N : Names) (fmt : Fmt) : Data → Option Def
  | .struct s => some (elabStruct N fmt s)
  | .enum e => (allSome (e.variants.map (elabVariant N fmt))).map .enum

end NS.Derive
