import Verif.Model.DeriveParse

/-!
# The `impl<..>` headers the derive macros write (`derive/src/parse.rs`, `derive/src/shared.rs`)
-/

namespace NS.Derive

/-- derive/src/parse.rs:192-197 `lifetime_prefix`. -/
def Generic.lifetimePrefix : Generic → Txt
  | .lifetime _ _ => "'".toList
  | _ => []

/-- derive/src/parse.rs:199-204 `const_prefix`. -/
def Generic.constPrefix : Generic → Txt
  | .const _ _ _ => "const ".toList
  | _ => []

/-- derive/src/parse.rs:206-208 `ident_only`. -/
def Generic.identOnly (g : Generic) : Txt := g.lifetimePrefix ++ g.full

/-- derive/src/parse.rs:280-289 `get_bounds`. -/
def Generic.getBounds : Generic → List Txt
  | .const _ t _ => [t.full]
  | .generic _ _ bs => fullList bs
  | .lifetime _ bs => bs.map fun b => "'".toList ++ b
  | .whereBounded _ bs => fullList bs

/-- derive/src/parse.rs:210-242 `full_with_const` with `bounds = true` (the only use). -/
def Generic.fullWithConst (extra : List Txt) (g : Generic) : Txt :=
  let bounds : Txt := match g with
    | .lifetime _ _ => join " + ".toList g.getBounds
    | _ =>
      let b := join " + ".toList g.getBounds
      if extra.isEmpty then b
      else if b.isEmpty then join " + ".toList extra
      else b ++ " + ".toList ++ join " + ".toList extra
  if bounds.isEmpty then g.constPrefix ++ g.lifetimePrefix ++ g.full ++ ":".toList
  else g.constPrefix ++ g.lifetimePrefix ++ g.full ++ ": ".toList ++ bounds

/-- derive/src/shared.rs:93-119 `struct_bounds_strings` and 121-147 `enum_bounds_strings` (the
same text twice): the text after `impl` and the text after the item's name. -/
def boundsStrings (generics : List Generic) (boundName crateName : Txt) : Txt × Txt :=
  if generics.isEmpty then ([], [])
  else
    let gs := generics.filter fun g => g.identOnly ≠ "Self".toList
    let bound := crateName ++ "::".toList ++ boundName
    ("<".toList ++ (gs.map fun g => g.fullWithConst [bound] ++ ", ".toList).flatten ++ ">".toList,
     "<".toList ++ (gs.map fun g => g.identOnly ++ ", ".toList).flatten ++ ">".toList)

/-- derive/src/lib.rs:35 (and the other entry points): the crate name used in generated code. -/
def crateName (d : Data) : Txt := (attrsCrate d.attributes).getD "nanoserde".toList

/-- derive/src/lib.rs:37-39 (and the other entry points): the proxy type when the whole item is
(de)serialized through one. -/
def itemProxy (d : Data) : Option Txt := attrsProxy d.attributes

end NS.Derive
