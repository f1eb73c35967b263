import Verif.Model.DeriveParse

/-!
# Rust item declarations (specification)

What a user writes: struct and enum declarations with attributes, visibilities, generic
parameters, fields and variants, as trees; and the token trees such a declaration consists of.
This file says nothing about how the derive macros read them.
-/

namespace NS.Derive

/-- `a sep b sep c`. -/
def sepBy {α : Type} (sep : List α) : List (List α) → List α
  | [] => []
  | [a] => a
  | a :: b :: r => a ++ sep ++ sepBy sep (b :: r)

/-- A comma token. -/
def comma : List TT := [.punct ',']
/-- The two tokens of `::`. -/
def colons : List TT := [.punct ':', .punct ':']

/-- The keywords of function types and of the closure traits. -/
inductive FnKw where
  | bare | fn | fnMut | fnOnce
  deriving DecidableEq

/-- As text. -/
def FnKw.text : FnKw → Txt
  | .bare => "fn".toList
  | .fn => "Fn".toList
  | .fnMut => "FnMut".toList
  | .fnOnce => "FnOnce".toList

/-- `dyn` or `impl`. -/
def objKw (dyn : Bool) : Txt := if dyn then "dyn".toList else "impl".toList

/-- Type expressions:
`path glob segs args` is `a::b::C<X, Y>`, with a leading `::` when `glob`;
`tuple ts` is `(A, B)` (no trailing comma, so one element is a parenthesised type);
`arr t n` is `[T; 4]`, `arrConst t segs` is `[T; a::N]`, `slice t` is `[T]`;
`ref l t` is `&T` or `&'l T`; `lifetime l` is `'l` (a generic argument); `never` is `!`;
`proj self tr name` is `<self as tr>::name`;
`fnTy k args` is `fn(A)`, `Fn(A)`, `FnMut(A)` or `FnOnce(A)`, `fnRet k args r` is the same with `-> R`;
`obj dyn b bs` is `dyn A + B + 'l`, or `impl A + B`;
`assoc glob segs name t` is `a::b::C<Name = T>`. -/
inductive RTy where
  | path (glob : Bool) (segs : List Txt) (args : List RTy)
  | tuple (ts : List RTy)
  | arr (t : RTy) (n : Nat)
  | arrConst (t : RTy) (segs : List Txt)
  | slice (t : RTy)
  | ref (l : Option Txt) (t : RTy)
  | lifetime (l : Txt)
  | never
  | proj (self : List Txt) (tr : RTy) (name : Txt)
  | fnTy (k : FnKw) (args : List RTy)
  | fnRet (k : FnKw) (args : List RTy) (r : RTy)
  | obj (dyn : Bool) (b : RTy) (bs : List RTy)
  | assoc (glob : Bool) (segs : List Txt) (name : Txt) (t : RTy)

/-- `a::b::c`. -/
def segToks (segs : List Txt) : List TT := sepBy colons (segs.map fun s => [.ident s])

mutual
/-- The tokens of a type expression. -/
def RTy.toks : RTy → List TT
  | .path glob segs args =>
    (if glob then colons else []) ++ segToks segs ++
      (match args with
       | [] => []
       | a :: as => [.punct '<'] ++ sepBy comma (a.toks :: toksList as) ++ [.punct '>'])
  | .tuple ts => [.group .paren (sepBy comma (toksList ts))]
  | .arr t n => [.group .bracket (t.toks ++ [.punct ';', .lit (showNat n)])]
  | .arrConst t segs => [.group .bracket (t.toks ++ [.punct ';'] ++ segToks segs)]
  | .slice t => [.group .bracket t.toks]
  | .ref none t => .punct '&' :: t.toks
  | .ref (some l) t => .punct '&' :: .punct '\'' :: .ident l :: t.toks
  | .lifetime l => [.punct '\'', .ident l]
  | .never => [.punct '!']
  | .proj self tr name =>
    [.punct '<'] ++ segToks self ++ [.ident "as".toList] ++ tr.toks ++ [.punct '>'] ++ colons ++
      [.ident name]
  | .fnTy k args => [.ident k.text, .group .paren (sepBy comma (toksList args))]
  | .fnRet k args r =>
    [.ident k.text, .group .paren (sepBy comma (toksList args)), .punct '-', .punct '>'] ++ r.toks
  | .obj dyn b bs => .ident (objKw dyn) :: sepBy [.punct '+'] (b.toks :: toksList bs)
  | .assoc glob segs name t =>
    (if glob then colons else []) ++ segToks segs ++ [.punct '<', .ident name, .punct '='] ++ t.toks ++
      [.punct '>']
/-- The tokens of each. -/
def toksList : List RTy → List (List TT)
  | [] => []
  | t :: ts => t.toks :: toksList ts
end

/-- `a::b` as text. -/
def segText (segs : List Txt) : Txt := sepBy "::".toList segs

mutual
/-- A type expression as text. -/
def RTy.text : RTy → Txt
  | .path glob segs args =>
    (if glob then "::".toList else []) ++ segText segs ++
      (match args with
       | [] => []
       | a :: as => "<".toList ++ sepBy ",".toList (a.text :: textList as) ++ ">".toList)
  | .tuple ts => "(".toList ++ sepBy ", ".toList (textList ts) ++ ")".toList
  | .arr t n => "[".toList ++ t.text ++ ";".toList ++ showNat n ++ "]".toList
  | .arrConst t segs => "[".toList ++ t.text ++ ";".toList ++ segText segs ++ "]".toList
  | .slice t => "[".toList ++ t.text ++ "]".toList
  | .ref none t => "& ".toList ++ t.text
  | .ref (some l) t => "&'".toList ++ l ++ " ".toList ++ t.text
  | .lifetime l => "'".toList ++ l
  | .never => "!".toList
  | .proj self tr name =>
    "<".toList ++ segText self ++ " as ".toList ++ tr.text ++ ">::".toList ++ name
  | .fnTy k args => k.text ++ "(".toList ++ sepBy ", ".toList (textList args) ++ ")".toList
  | .fnRet k args r =>
    k.text ++ "(".toList ++ sepBy ", ".toList (textList args) ++ ")".toList ++ " -> ".toList ++ r.text
  | .obj dyn b bs => objKw dyn ++ " ".toList ++ sepBy " + ".toList (b.text :: textList bs)
  | .assoc glob segs name t =>
    (if glob then "::".toList else []) ++ segText segs ++ "<".toList ++ name ++ "= ".toList ++ t.text ++
      ">".toList
/-- The text of each. -/
def textList : List RTy → List Txt
  | [] => []
  | t :: ts => t.text :: textList ts
end

/-- A type expression without its generic arguments, as text. -/
def RTy.head : RTy → Txt
  | .path glob segs _ => (if glob then "::".toList else []) ++ segText segs
  | .ref none t => "& ".toList ++ t.head
  | .ref (some l) t => "&'".toList ++ l ++ " ".toList ++ t.head
  | t => t.text

mutual
/-- The component types: generic arguments, tuple components, the element type of an array; those
of the argument and the result of a function, and of the first trait of an object. -/
def RTy.parts : RTy → List RTy
  | .path _ _ args => args
  | .tuple ts => ts
  | .arr t _ => [t]
  | .arrConst t _ => [t]
  | .slice t => [t]
  | .ref _ t => t.parts
  | .fnTy _ args => partsList args
  | .fnRet _ args r => r.parts ++ partsList args
  | .obj _ b _ => b.parts
  | .assoc _ _ name _ => [.path false [name] []]
  | .lifetime _ => []
  | .never => []
  | .proj _ _ _ => []
/-- Those of each. -/
def partsList : List RTy → List RTy
  | [] => []
  | t :: ts => t.parts ++ partsList ts
end

/-- Text that can be an identifier: not empty, and it does not look like a number. -/
def IdentLike : Txt → Prop
  | [] => False
  | c :: _ => isDig c = false ∧ c ≠ '+'

/-- Words that start other kinds of types. -/
def typeKeywords : List Txt :=
  ["impl".toList, "dyn".toList, "fn".toList, "Fn".toList, "FnMut".toList, "FnOnce".toList]

/-- The segments of a path. -/
def Segs : List Txt → Prop
  | [] => False
  | s :: r => IdentLike s ∧ s ∉ typeKeywords ∧ ∀ x ∈ r, IdentLike x

/-- Types that end in a `dyn` or `impl` type: a following `+` belongs to it. -/
def RTy.endsObj : RTy → Bool
  | .obj _ _ _ => true
  | .ref _ t => t.endsObj
  | .fnRet _ _ r => r.endsObj
  | _ => false

/-- What an object type starts with: a trait path or a closure trait. -/
def RTy.isTrait : RTy → Bool
  | .path _ _ _ => true
  | .assoc _ _ _ _ => true
  | .fnTy k _ => k ≠ .bare
  | .fnRet k _ r => k ≠ .bare && !r.endsObj
  | _ => false

/-- What may follow `&`: a path, a tuple or parenthesised type, an array or a slice, a projection. -/
def RTy.referable : RTy → Bool
  | .ref _ _ | .lifetime _ | .never => false
  | _ => true

mutual
/-- Well-formed type expressions of the supported fragment (no `&mut`, no `&&T`, array lengths are
decimal literals or paths; function types have at most one argument, and an associated type
binding is the only generic argument: see the witnesses next to the theorem; an object type starts
with a trait, and only lifetimes and traits follow). -/
def RTy.WF : RTy → Prop
  | .path _ segs args => Segs segs ∧ WFList args
  | .tuple ts => WFList ts
  | .arr t n => t.WF ∧ n < 2 ^ 63
  | .arrConst t segs => t.WF ∧ Segs segs
  | .slice t => t.WF
  | .ref _ t => t.WF ∧ t.referable
  | .lifetime _ => True
  | .never => True
  | .proj self tr name => Segs self ∧ tr.WF ∧ Segs [name]
  | .fnTy _ args => args.length ≤ 1 ∧ WFList args
  | .fnRet _ args r => args.length ≤ 1 ∧ WFList args ∧ r.WF
  | .obj _ b bs => b.WF ∧ WFList bs ∧ b.isTrait ∧ ∀ t ∈ bs, t.endsObj = false
  | .assoc _ segs name t => Segs segs ∧ Segs [name] ∧ t.WF
/-- Each is well-formed. -/
def WFList : List RTy → Prop
  | [] => True
  | t :: ts => t.WF ∧ WFList ts
end

/-! ## Attributes -/

/-- A literal in an attribute: a string literal (the text between the quotes, as written) or any
other literal. -/
inductive RLit where
  | str (s : Txt)
  | other (s : Txt)
  deriving DecidableEq

/-- The literal token. -/
def RLit.tok : RLit → TT
  | .str s => .lit ('"' :: s ++ ['"'])
  | .other s => .lit s

/-- The value: what is between the quotes, or the literal itself. -/
def RLit.value : RLit → Txt
  | .str s => s
  | .other s => s

/-- One option of `#[nserde(..)]`: `skip` or `rename = "x"`. -/
inductive ROpt where
  | flag (name : Txt)
  | val (name : Txt) (v : RLit)
  deriving DecidableEq

/-- The tokens of an option. -/
def ROpt.toks : ROpt → List TT
  | .flag n => [.ident n]
  | .val n v => [.ident n, .punct '=', v.tok]

/-- The option as a list of words. -/
def ROpt.words : ROpt → List Txt
  | .flag n => [n]
  | .val n v => [n, v.value]

/-- Options in the supported fragment: any other literal does not start with a quote. -/
def ROpt.WF : ROpt → Prop
  | .val _ (.other s) => s.head? ≠ some '"'
  | _ => True

/-- An attribute: `#[nserde(opts)]`, or any other `#[name ...]` (also doc comments). -/
inductive RAttr where
  | nserde (d : Delim) (opts : List ROpt)
  | other (name : Txt) (rest : List TT)

/-- The tokens of an attribute. -/
def RAttr.toks : RAttr → List TT
  | .nserde d opts =>
    [.punct '#', .group .bracket [.ident "nserde".toList, .group d (sepBy comma (opts.map ROpt.toks))]]
  | .other name rest => [.punct '#', .group .bracket (.ident name :: rest)]

/-- Supported attributes: `nserde` lists at least one option. -/
def RAttr.WF : RAttr → Prop
  | .nserde _ opts => opts ≠ [] ∧ ∀ o ∈ opts, o.WF
  | .other name _ => name ≠ "nserde".toList

/-- The options of an attribute. -/
def RAttr.opts : RAttr → List ROpt
  | .nserde _ opts => opts
  | .other _ _ => []

/-- All `nserde` options of an item, field or variant, in the order written. -/
def optsOf (as : List RAttr) : List ROpt := as.flatMap RAttr.opts

/-- The tokens of a list of attributes. -/
def attrToks (as : List RAttr) : List TT := as.flatMap RAttr.toks

/-! ## Fields, variants, items -/

/-- A visibility: none, `pub`, `pub(..)`. -/
inductive RVis where
  | priv
  | pub
  | restricted (ts : List TT)

/-- The tokens of a visibility. -/
def RVis.toks : RVis → List TT
  | .priv => []
  | .pub => [.ident "pub".toList]
  | .restricted ts => [.ident "pub".toList, .group .paren ts]

/-- A named field. -/
structure RField where
  attrs : List RAttr := []
  vis : RVis := .priv
  name : Txt
  ty : RTy

/-- A field of a tuple struct. -/
structure RTField where
  attrs : List RAttr := []
  vis : RVis := .priv
  ty : RTy

/-- The tokens of a named field. -/
def RField.toks (f : RField) : List TT :=
  attrToks f.attrs ++ f.vis.toks ++ [.ident f.name, .punct ':'] ++ f.ty.toks

/-- The tokens of a tuple field. -/
def RTField.toks (f : RTField) : List TT := attrToks f.attrs ++ f.vis.toks ++ f.ty.toks

/-- A supported named field. -/
def RField.WF (f : RField) : Prop :=
  (∀ a ∈ f.attrs, a.WF) ∧ f.name ≠ "pub".toList ∧ f.ty.WF

/-- A supported tuple field: without `pub` its type does not start with punctuation, and after a
plain `pub` it does not start with a parenthesis (see the witnesses next to the theorem). -/
def RTField.WF (f : RTField) : Prop :=
  (∀ a ∈ f.attrs, a.WF) ∧ f.ty.WF ∧
    (match f.vis, f.ty.toks with
     | .priv, .punct _ :: _ => False
     | .priv, .ident s :: _ => s ≠ "pub".toList
     | .pub, .group .paren _ :: _ => False
     | _, _ => True)

/-- A comma-separated list, with an optional trailing comma. -/
def listToks (items : List (List TT)) (trail : Bool) : List TT :=
  sepBy comma items ++ (if trail && !items.isEmpty then comma else [])

/-- The body of a struct. -/
inductive RBody where
  | unit
  | tuple (fs : List RTField) (trail : Bool)
  | named (fs : List RField) (trail : Bool)

/-- The tokens of a struct body. -/
def RBody.toks : RBody → List TT
  | .unit => [.punct ';']
  | .tuple fs trail => [.group .paren (listToks (fs.map RTField.toks) trail), .punct ';']
  | .named fs trail => [.group .brace (listToks (fs.map RField.toks) trail)]

/-- A supported body. -/
def RBody.WF : RBody → Prop
  | .unit => True
  | .tuple fs _ => ∀ f ∈ fs, f.WF
  | .named fs _ => ∀ f ∈ fs, f.WF

/-- The shape of an enum variant; `disc t` is `= t` for a single token `t`. -/
inductive RShape where
  | unit
  | disc (t : TT)
  | tuple (ts : List RTy)
  | named (fs : List RField) (trail : Bool)

/-- The tokens of a variant's shape. -/
def RShape.toks : RShape → List TT
  | .unit => []
  | .disc t => [.punct '=', t]
  | .tuple ts => [.group .paren (sepBy comma (toksList ts))]
  | .named fs trail => [.group .brace (listToks (fs.map RField.toks) trail)]

/-- Supported shapes. -/
def RShape.WF : RShape → Prop
  | .unit => True
  | .disc _ => True
  | .tuple ts => WFList ts ∧ ts ≠ []
  | .named fs _ => ∀ f ∈ fs, f.WF

/-- An enum variant. -/
structure RVariant where
  attrs : List RAttr := []
  name : Txt
  shape : RShape

/-- The tokens of a variant. -/
def RVariant.toks (v : RVariant) : List TT := attrToks v.attrs ++ [.ident v.name] ++ v.shape.toks

/-- A supported variant. -/
def RVariant.WF (v : RVariant) : Prop := (∀ a ∈ v.attrs, a.WF) ∧ v.shape.WF

/-- A generic parameter: `'l: 'a + 'b`, or `T: A + B = D`. -/
inductive RParam where
  | lifetime (l : Txt) (bounds : List Txt)
  | type (name : Txt) (bounds : List RTy) (dflt : Option RTy)

/-- Its name. -/
def RParam.name : RParam → Txt
  | .lifetime l _ => l
  | .type n _ _ => n

/-- `: A + B`. -/
def boundToks (bs : List (List TT)) : List TT :=
  match bs with
  | [] => []
  | b :: bs => [.punct ':'] ++ sepBy [.punct '+'] (b :: bs)

/-- The tokens of a parameter. -/
def RParam.toks : RParam → List TT
  | .lifetime l bs => [.punct '\'', .ident l] ++ boundToks (bs.map fun b => [.punct '\'', .ident b])
  | .type n bs d =>
    .ident n :: boundToks (toksList bs) ++
      (match d with
       | none => []
       | some t => .punct '=' :: t.toks)

/-- A bound in the supported fragment: a trait path without leading `::`, a closure trait, or a
lifetime. -/
def RTy.isBound : RTy → Bool
  | .path glob _ _ => !glob
  | .assoc glob _ _ _ => !glob
  | .fnTy k _ => k ≠ .bare
  | .fnRet k _ r => k ≠ .bare && !r.endsObj
  | .lifetime _ => true
  | _ => false

/-- A supported parameter (no `const` parameters, see the witness next to the theorem). -/
def RParam.WF : RParam → Prop
  | .lifetime _ _ => True
  | .type n bs d => Segs [n] ∧ n ≠ "const".toList ∧ n ≠ "Self".toList ∧ WFList bs ∧
      (∀ b ∈ bs, b.isBound) ∧ (∀ t ∈ d, t.WF)

/-- One item of a `where` clause, `T: A + B`. -/
structure RWhere where
  name : Txt
  bounds : List RTy

/-- The tokens of a `where` item. -/
def RWhere.toks (w : RWhere) : List TT := .ident w.name :: boundToks (toksList w.bounds)

/-- The generic parameters of an item and its `where` clause. -/
structure RGenerics where
  params : List RParam := []
  wheres : List RWhere := []
  /-- a comma after the last parameter -/
  ptrail : Bool := false
  /-- a comma after the last `where` item -/
  wtrail : Bool := false

/-- The tokens of `<..> where ..`. -/
def RGenerics.toks (g : RGenerics) : List TT :=
  (match g.params with
   | [] => []
   | p :: ps => [.punct '<'] ++ listToks ((p :: ps).map RParam.toks) g.ptrail ++ [.punct '>']) ++
  (match g.wheres with
   | [] => []
   | w :: ws => [.ident "where".toList] ++ listToks ((w :: ws).map RWhere.toks) g.wtrail)

/-- Supported generics: parameters have distinct names, and `where` items bound type parameters
of the item by at least one bound. -/
def RGenerics.WF (g : RGenerics) : Prop :=
  (∀ p ∈ g.params, p.WF) ∧ (g.params.map RParam.name).Pairwise (· ≠ ·) ∧
  (∀ w ∈ g.wheres, w.bounds ≠ [] ∧ WFList w.bounds ∧ (∀ b ∈ w.bounds, b.isBound) ∧
    ∃ n bs d, RParam.type n bs d ∈ g.params ∧ n = w.name)

/-- The bounds of the type parameter `n` in the `where` clause. -/
def RGenerics.whereBounds (g : RGenerics) (n : Txt) : List RTy :=
  (g.wheres.filter fun w => w.name = n).flatMap RWhere.bounds

/-- A struct declaration. -/
structure RStruct where
  attrs : List RAttr := []
  isPub : Bool := false
  name : Txt
  generics : RGenerics := {}
  body : RBody

/-- The tokens of a struct declaration. -/
def RStruct.toks (s : RStruct) : List TT :=
  attrToks s.attrs ++ (if s.isPub then [.ident "pub".toList] else []) ++
    [.ident "struct".toList, .ident s.name] ++ s.generics.toks ++ s.body.toks

/-- A supported struct (a tuple struct has no `where` clause, and no comma ends the `where` clause
of a unit struct). -/
def RStruct.WF (s : RStruct) : Prop :=
  (∀ a ∈ s.attrs, a.WF) ∧ s.generics.WF ∧ s.body.WF ∧
    (match s.body with
     | .tuple _ _ => s.generics.wheres = []
     | .unit => s.generics.wtrail = false
     | .named _ _ => True)

/-- An enum declaration. -/
structure REnum where
  attrs : List RAttr := []
  isPub : Bool := false
  name : Txt
  generics : RGenerics := {}
  variants : List RVariant
  trail : Bool := false

/-- The tokens of an enum declaration. -/
def REnum.toks (e : REnum) : List TT :=
  attrToks e.attrs ++ (if e.isPub then [.ident "pub".toList] else []) ++
    [.ident "enum".toList, .ident e.name] ++ e.generics.toks ++
    [.group .brace (listToks (e.variants.map RVariant.toks) e.trail)]

/-- A supported enum. -/
def REnum.WF (e : REnum) : Prop :=
  (∀ a ∈ e.attrs, a.WF) ∧ e.generics.WF ∧ ∀ v ∈ e.variants, v.WF

end NS.Derive
