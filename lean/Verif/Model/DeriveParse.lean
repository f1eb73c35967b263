import Verif.Model.Lex

/-!
# The derive macros' parser (`derive/src/parse.rs`) and attribute lookups (`derive/src/shared.rs`)

A `proc_macro::TokenStream` is a list of token trees.  Every parsing function of
`derive/src/parse.rs` takes `&mut Peekable<IntoIter>`, here the list of remaining token trees; it
either returns or panics (a panic of a derive macro is a compile error of the user's crate).
`M Empty (List TT)` is reused: these functions have no `Err`.

Simplifications: panic messages are dropped; spans, `Punct` spacing and `Ident` hygiene are not
represented (the code does not look at them); `Field::vis` is always `Public` and
`Attribute::name` is always `"nserde"`, both are left out.
-/

namespace NS.Derive

/-- Text. -/
abbrev Txt := List Char

/-- `proc_macro::Delimiter`. -/
inductive Delim where
  | paren | brace | bracket | none
deriving Repr, DecidableEq

/-- `proc_macro::TokenTree`.  Identifiers and literals are given by their `to_string()`. -/
inductive TT where
  | ident (s : Txt)
  | punct (c : Char)
  | lit (s : Txt)
  | group (d : Delim) (ts : List TT)
deriving Repr

/-- A parsing function: remaining tokens are the state. -/
abbrev DM := M Empty (List TT)

/-- `Option::expect` / `unwrap`: panics on `None`. -/
def expect {α : Type} : Option α → DM α
  | some a => pure a
  | none => M.panic

/-- `source.peek()`. -/
def peek : DM (Option TT) := fun ts => .ok ts.head? ts

/-- `source.next()`. -/
def next : DM (Option TT) := fun ts => .ok ts.head? ts.tail

/-- Run a parser on the stream of a group (`group.stream().into_iter().peekable()`); what it
leaves unread is dropped with the local iterator. -/
def onStream {α : Type} (ts : List TT) (p : DM α) : DM α := fun s =>
  match p ts with
  | .ok a _ => .ok a s
  | .err e _ => .err e s
  | .panic => .panic
  | .oof => .oof

/-- derive/src/parse.rs:486-493 `next_punct`. -/
def nextPunct : DM (Option Char) := fun ts =>
  match ts with
  | .punct c :: ts => .ok (some c) ts
  | ts => .ok none ts

/-- derive/src/parse.rs:495-507 `next_exact_punct` (`Some(punct)` is only tested for presence). -/
def nextExactPunct (c : Char) : DM Bool := fun ts =>
  match ts with
  | .punct c' :: rest => if c' = c then .ok true rest else .ok false ts
  | ts => .ok false ts

/-- derive/src/parse.rs:509-522 `next_literal`: the quotes of a string literal are cut off (a
lone quote makes the second `remove` panic). -/
def nextLiteral : DM (Option Txt) := fun ts =>
  match ts with
  | .lit s :: rest =>
    match s with
    | '"' :: s' => if s'.isEmpty then .panic else .ok (some s'.dropLast) rest
    | _ => .ok (some s) rest
  | ts => .ok none ts

/-- derive/src/parse.rs:524-530 `next_eof`. -/
def nextEof : DM Bool := fun ts => .ok ts.isEmpty ts

/-- derive/src/parse.rs:532-540 `next_ident`. -/
def nextIdent : DM (Option Txt) := fun ts =>
  match ts with
  | .ident s :: rest => .ok (some s) rest
  | ts => .ok none ts

/-- derive/src/parse.rs:542-552 `next_group`. -/
def nextGroup : DM (Option (Delim × List TT)) := fun ts =>
  match ts with
  | .group d g :: rest => .ok (some (d, g)) rest
  | ts => .ok none ts

/-- derive/src/parse.rs:466-484 `next_visibility_modifier` (the result is not used). -/
def nextVisibility : DM Unit := fun ts =>
  match ts with
  | .ident s :: rest =>
    if s = "pub".toList then
      match rest with
      | .group .paren _ :: rest' => .ok () rest'
      | _ => .ok () rest
    else .ok () ts
  | _ => .ok () ts

/-- derive/src/parse.rs:558-570 `next_lifetime`. -/
def nextLifetime : DM (Option Txt) := fun ts =>
  match ts with
  | .punct c :: rest =>
    if c = '\'' then
      match rest with
      | .ident s :: rest' => .ok (some s) rest'
      | _ => .panic
    else .ok none ts
  | ts => .ok none ts

/-! ## Parsed syntax -/

/-- derive/src/parse.rs:18-23 `Attribute`: its `tokens`. -/
abbrev Attr := List Txt

/-- derive/src/parse.rs:55-59 `FnType`. -/
inductive FnType where
  | bare
  | closure (reusable fnMut : Bool)
deriving Repr, DecidableEq

mutual
/-- derive/src/parse.rs:103-109 `Type`. -/
inductive PType where
  | mk (ident : Cat) (wraps : Option (List PType)) (refTy : Option (Option Txt))
      (asOther : Option PType)
/-- derive/src/parse.rs:61-100 `Category`. -/
inductive Cat where
  | never
  | none
  | array (content : PType) (len : Option CVal)
  | tuple (contents : List PType)
  | named (path : Txt)
  | lifetime (path : Txt)
  | fn (category : FnType) (args : Option PType) (ret : Option PType)
  | object (isDyn : Bool) (traits : List PType)
  | associated (base asTrait assoc : PType)
  | associatedBound (associated : Txt) (is : PType)
  | anonymous (contents : PStruct)
/-- derive/src/parse.rs:50-54 `ConstValType`. -/
inductive CVal where
  | value (v : Int)
  | named (t : PType)
/-- derive/src/parse.rs:41-48 `Field`. -/
inductive PField where
  | mk (attributes : List Attr) (name : Option Txt) (ty : PType)
/-- derive/src/parse.rs:112-132 `Generic`. -/
inductive Generic where
  | const (name : Txt) (ty : PType) (dflt : Option CVal)
  | generic (name : Txt) (dflt : Option PType) (bounds : List PType)
  | lifetime (name : Txt) (bounds : List Txt)
  | whereBounded (name : Txt) (bounds : List PType)
/-- derive/src/parse.rs:134-142 `Struct`. -/
inductive PStruct where
  | mk (name : Option Txt) (named : Bool) (fields : List PField) (attributes : List Attr)
      (generics : List Generic)
end

/-- derive/src/parse.rs:144-151 `Enum`. -/
structure PEnum where
  name : Txt
  variants : List PField
  attributes : List Attr
  generics : List Generic

/-- derive/src/parse.rs:153-158 `Data` (`Union` is never built). -/
inductive Data where
  | struct (s : PStruct)
  | enum (e : PEnum)

namespace PType
/-- Field access. -/
def cat : PType → Cat | .mk c _ _ _ => c
/-- Field access. -/
def wraps : PType → Option (List PType) | .mk _ w _ _ => w
/-- Field access. -/
def refTy : PType → Option (Option Txt) | .mk _ _ r _ => r
/-- Field access. -/
def asOther : PType → Option PType | .mk _ _ _ a => a
/-- derive/src/parse.rs:460-463 `set_ref_type`. -/
def setRef (r : Option (Option Txt)) : PType → PType | .mk c w _ a => .mk c w r a
end PType

namespace PField
/-- Field access. -/
def attributes : PField → List Attr | .mk a _ _ => a
/-- Field access. -/
def name : PField → Option Txt | .mk _ n _ => n
/-- Field access. -/
def ty : PField → PType | .mk _ _ t => t
end PField

namespace PStruct
/-- Field access. -/
def name : PStruct → Option Txt | .mk n _ _ _ _ => n
/-- Field access. -/
def named : PStruct → Bool | .mk _ b _ _ _ => b
/-- Field access. -/
def fields : PStruct → List PField | .mk _ _ f _ _ => f
/-- Field access. -/
def attributes : PStruct → List Attr | .mk _ _ _ a _ => a
/-- Field access. -/
def generics : PStruct → List Generic | .mk _ _ _ _ g => g
/-- `struct_.attributes = attributes`. -/
def setAttributes (a : List Attr) : PStruct → PStruct | .mk n b f _ g => .mk n b f a g
end PStruct

/-- derive/src/parse.rs:162-171 `Data::name`. -/
def Data.name : Data → Txt
  | .struct s => s.name.getD []
  | .enum e => e.name

/-- derive/src/parse.rs:173-179 `Data::attributes`. -/
def Data.attributes : Data → List Attr
  | .struct s => s.attributes
  | .enum e => e.attributes

/-- `slice::join(sep)` of texts. -/
def join (sep : Txt) : List Txt → Txt
  | [] => []
  | [a] => a
  | a :: b :: r => a ++ sep ++ join sep (b :: r)

/-- The reference prefix of derive/src/parse.rs:425-431, 437-443. -/
def refPrefix : Option (Option Txt) → Txt
  | none => []
  | some none => "& ".toList
  | some (some l) => "&'".toList ++ l ++ " ".toList

/-- The generic arguments of derive/src/parse.rs:445-456, given as text: written for named types
only. -/
def Cat.argsText (ws : Option (List Txt)) : Cat → Txt
  | .named _ =>
    match ws with
    | .some ws => "<".toList ++ join ",".toList ws ++ ">".toList
    | .none => []
  | _ => []

/-- derive/src/parse.rs:388-397: the keyword of a function type. -/
def FnType.name : FnType → Txt
  | .bare => "fn".toList
  | .closure reusable fnMut =>
    if fnMut then "FnMut".toList else if reusable then "Fn".toList else "FnOnce".toList

/-- ` -> R` (derive/src/parse.rs:384-387). -/
def arrow : Option Txt → Txt
  | none => []
  | some r => " -> ".toList ++ r

/-- ` as T` (derive/src/parse.rs:322-328). -/
def asTxt : Option Txt → Txt
  | none => []
  | some a => " as ".toList ++ a

mutual
/-- derive/src/parse.rs:436-458 `Type::full`. -/
def PType.full : PType → Txt
  | .mk c w r _ => refPrefix r ++ Cat.path (fullOpt w) c ++ c.argsText (fullOpt w)
/-- derive/src/parse.rs:307-420 `Category::path`; the first argument is `full` of the parent's
`wraps`.  (`wraps.unwrap()[0]` of an associated bound cannot panic: `next_type` fills it.) -/
def Cat.path (ws : Option (List Txt)) : Cat → Txt
  | .array c l => "[".toList ++ c.full ++ lenText l ++ "]".toList
  | .tuple ts => "(".toList ++ join ", ".toList (fullList ts) ++ ")".toList
  | .named p => p
  | .object d ts => (if d then "dyn ".toList else "impl ".toList) ++ join " + ".toList (fullList ts)
  | .associated b t a =>
    "<".toList ++ b.full ++ " as ".toList ++ t.full ++ ">::".toList ++ a.full
  | .associatedBound a is =>
    a ++ "<".toList ++ ((ws.bind (·.head?)).getD []) ++ "= ".toList ++ is.full ++ ">".toList
  | .lifetime p => "'".toList ++ p
  | .fn k args ret => k.name ++ "(".toList ++ (fullOne? args).getD [] ++ ")".toList ++ arrow (fullOne? ret)
  | .never => "!".toList
  | .none => []
  | .anonymous s => s.text
/-- The length of an array type (derive/src/parse.rs:319-332). -/
def lenText : Option CVal → Txt
  | none => []
  | some v => ";".toList ++ v.text
/-- The length of an array type. -/
def CVal.text : CVal → Txt
  | .value v => showInt v
  | .named t => t.full ++ asText t
/-- ` as T` for the `as_other` of a type. -/
def asText : PType → Txt
  | .mk _ _ _ a => asTxt (fullOne? a)
/-- derive/src/parse.rs:401-416: an anonymous struct. -/
def PStruct.text : PStruct → Txt
  | .mk n _ fs _ _ => n.getD [] ++ "{\n".toList ++ fieldsText fs ++ "}\n".toList
/-- `full` of an optional type. -/
def fullOne? : Option PType → Option Txt
  | none => none
  | some t => some t.full
/-- `full` of each. -/
def fullList : List PType → List Txt
  | [] => []
  | t :: ts => t.full :: fullList ts
/-- `full` of each of optional `wraps`. -/
def fullOpt : Option (List PType) → Option (List Txt)
  | none => none
  | some ts => some (fullList ts)
/-- The fields of an anonymous struct. -/
def fieldsText : List PField → Txt
  | [] => []
  | .mk _ n t :: fs =>
    "\t".toList ++ n.getD [] ++ ": ".toList ++ t.full ++ "\n".toList ++ fieldsText fs
end

/-- derive/src/parse.rs:423-434 `Type::base`. -/
def PType.base : PType → Txt
  | .mk c w r _ => refPrefix r ++ Cat.path (fullOpt w) c

/-! ## `next_type` -/

/-- `{}` of a token tree.  Simplification: for a group only the opening delimiter (the callers
compare the text with `<`, `where`, `:` or parse it as a number; a group is none of these). -/
def TT.text : TT → Txt
  | .ident s => s
  | .punct c => [c]
  | .lit s => s
  | .group .paren _ => "(".toList
  | .group .brace _ => "{".toList
  | .group .bracket _ => "[".toList
  | .group .none _ => " ".toList

/-- Value of a nonempty string of decimal digits. -/
def digitsVal? (cs : Txt) : Option Nat :=
  if cs ≠ [] ∧ cs.all isDig then some (digitsVal cs) else none

/-- `str::parse::<usize>()`: an optional `+` and decimal digits, at most `usize::MAX`.
(`IntErrorKind::Zero`, for which `next_array` has an arm, is never produced for `usize`.) -/
def parseUsize (s : Txt) : Option Nat :=
  let v := match s with
    | '+' :: r => digitsVal? r
    | s => digitsVal? s
  v.bind fun n => if n ≤ u64Max then some n else none

/-- `str::parse::<isize>()`. -/
def parseIsize (s : Txt) : Option Int :=
  match s with
  | '+' :: r => (digitsVal? r).bind fun n => if n < 2 ^ 63 then some n else none
  | '-' :: r => (digitsVal? r).bind fun n => if n ≤ 2 ^ 63 then some (-(n : Int)) else none
  | s => (digitsVal? s).bind fun n => if n < 2 ^ 63 then some n else none

/-- `val as isize`. -/
def asIsize (n : Nat) : Int := if n < 2 ^ 63 then n else (n : Int) - 2 ^ 64

/-- derive/src/parse.rs:585-596 `as_other_type`; `ty` is `next_type`. -/
def asOtherType (ty : DM (Option PType)) : DM (Option PType) := do
  match ← peek with
  | some (.ident s) =>
    if s = "as".toList then do
      let _ ← next
      let t ← ty >>= expect
      pure (some t)
    else pure none
  | _ => pure none

/-- derive/src/parse.rs:573-584 `as_associated_definition`. -/
def asAssociatedDefinition (ty : DM (Option PType)) : DM (Option PType) := do
  if ← nextExactPunct '=' then do
    let t ← ty >>= expect
    pure (some t)
  else pure none

/-- derive/src/parse.rs:597-646 `next_array`, run on the tokens between the brackets. -/
def nextArray (ty : DM (Option PType)) : DM PType := do
  let t ← ty >>= expect
  if ← nextExactPunct ';' then do
    let len ← peek >>= expect
    match parseUsize len.text with
    | some v => pure (.mk (.array t (some (.value (asIsize v)))) (some [t]) none none)
    | none => do
      let l ← ty >>= expect
      pure (.mk (.array t (some (.named l))) (some [t]) none none)
  else pure (.mk (.array t none) (some [t]) none none)

/-- derive/src/parse.rs:648-662: the loop of `next_tuple`. -/
def tupleLoop (ty : DM (Option PType)) : Nat → List PType → DM (List PType)
  | 0, _ => M.oof
  | n + 1, acc => do
    match ← ty with
    | none => pure acc
    | some t =>
      if ← nextExactPunct ',' then tupleLoop ty n (acc ++ [t]) else pure (acc ++ [t])

/-- derive/src/parse.rs:648-673 `next_tuple`, run on the tokens between the parentheses. -/
def nextTuple (n : Nat) (ty : DM (Option PType)) : DM PType := do
  let ts ← tupleLoop ty n []
  pure (.mk (.tuple ts) (some ts) none none)

/-- derive/src/parse.rs:678-691 `next_return_type`. -/
def nextReturnType (ty : DM (Option PType)) : DM (Option PType) := fun ts =>
  match ts with
  | .punct c :: .punct c' :: rest =>
    if c = '-' ∧ c' = '>' then (do let t ← ty >>= expect; pure (some t) : DM _) rest
    else .ok none ts
  | _ => .ok none ts

/-- The `wraps` of a function type: those of the result, then those of the arguments. -/
def fnWraps (args ret : Option PType) : List PType :=
  ((ret.bind PType.wraps).getD []) ++ ((args.bind PType.wraps).getD [])

/-- derive/src/parse.rs:693-732 `next_closure`. -/
def nextClosure (ty : DM (Option PType)) (reusable fnMut : Bool) : DM PType := do
  let g ← nextGroup
  let args ← (match g with
    | some (_, ts) => do
      let t ← onStream ts (ty >>= expect)
      pure (some t)
    | none => pure none : DM (Option PType))
  let ret ← nextReturnType ty
  let w := if args.isSome || ret.isSome then some (fnWraps args ret) else none
  pure (.mk (.fn (.closure reusable fnMut) args ret) w none none)

/-- derive/src/parse.rs:675-787 `next_function_like`. -/
def nextFunctionLike (ty : DM (Option PType)) : DM (Option PType) := do
  match ← peek with
  | some (.ident s) =>
    if s = "fn".toList then do
      let _ ← next
      let g ← nextGroup >>= expect
      let args ← onStream g.2 (ty >>= expect)
      let ret ← nextReturnType ty
      let w := if args.wraps.isSome || ret.isSome then some (fnWraps (some args) ret) else none
      pure (some (.mk (.fn .bare (some args) ret) w none none))
    else if s = "Fn".toList then do
      let _ ← next
      let t ← nextClosure ty true false
      pure (some t)
    else if s = "FnMut".toList then do
      let _ ← next
      let t ← nextClosure ty true true
      pure (some t)
    else if s = "FnOnce".toList then do
      let _ ← next
      let t ← nextClosure ty false false
      pure (some t)
    else pure none
  | _ => pure none

/-- `while next_exact_punct(source, "+").is_some() { push(next_type) }`. -/
def plusLoop (ty : DM (Option PType)) : Nat → List PType → DM (List PType)
  | 0, _ => M.oof
  | n + 1, acc => do
    if ← nextExactPunct '+' then do
      let t ← ty >>= expect
      plusLoop ty n (acc ++ [t])
    else pure acc

/-- derive/src/parse.rs:789-842 `next_object`. -/
def nextObject (n : Nat) (ty : DM (Option PType)) : DM (Option PType) := do
  match ← peek with
  | some (.ident s) =>
    if s = "impl".toList ∨ s = "dyn".toList then do
      let _ ← next
      let t ← ty >>= expect
      let ts ← plusLoop ty n [t]
      pure (some (.mk (.object (s = "dyn".toList) ts) t.wraps t.refTy t.asOther))
    else pure none
  | _ => pure none

/-- derive/src/parse.rs:926-939: the loop reading `::ident`. -/
def pathLoop : Nat → Txt → DM Txt
  | 0, _ => M.oof
  | n + 1, acc => fun ts =>
    match ts with
    | .punct c :: .punct c' :: rest =>
      if c = ':' ∧ c' = ':' then
        (do
          let i ← nextIdent >>= expect
          pathLoop n (acc ++ "::".toList ++ i) : DM Txt) rest
      else .ok acc ts
    | _ => .ok acc ts

/-- `while let Some(_comma) = next_exact_punct(source, ",") { generics.push(next_type) }`. -/
def commaLoop (ty : DM (Option PType)) : Nat → List PType → DM (List PType)
  | 0, _ => M.oof
  | n + 1, acc => do
    if ← nextExactPunct ',' then do
      let t ← ty >>= expect
      commaLoop ty n (acc ++ [t])
    else pure acc

/-- `assert!(c)`. -/
def assert (c : Bool) : DM Unit := if c then pure () else M.panic

/-- derive/src/parse.rs:924-1026: the end of `next_type`, a path with optional generic arguments
or a qualified path `<T as Trait>::Name`. -/
def nextPathType (n : Nat) (ty : DM (Option PType)) (refTy : Option (Option Txt)) : DM PType := do
  let head ← nextIdent
  let path ← pathLoop n (head.getD [])
  if ← nextExactPunct '<' then do
    if path.isEmpty then do
      let t ← ty >>= expect
      assert (match t.cat with | .named _ => true | _ => false)
      let gt ← nextExactPunct '>'
      assert gt
      let c1 ← nextExactPunct ':'
      let c2 ← nextExactPunct ':'
      assert (c1 && c2)
      let a ← ty >>= expect
      let tr ← expect t.asOther
      pure (.mk (.associated t tr a) t.wraps refTy none)
    else do
      let t ← ty >>= expect
      let args ← commaLoop ty n [t]
      let asO ← asOtherType ty
      match ← asAssociatedDefinition ty with
      | some d => do
        let gt ← nextExactPunct '>'
        assert gt
        pure (.mk (.associatedBound path d) (some args) refTy asO)
      | none => do
        let gt ← nextExactPunct '>'
        assert gt
        pure (.mk (.named path) (some args) refTy asO)
  else do
    let asO ← asOtherType ty
    pure (.mk (if path.isEmpty then .none else .named path) none refTy asO)

/-! ## Attributes -/

/-- derive/src/parse.rs:1053-1108: the loop of `next_attribute` over the tokens between the
parentheses of `nserde(..)`; `attrs`, `toks` are the local vectors. -/
def attrLoop : Nat → List Attr → List Txt → DM (List Attr)
  | 0, _, _ => M.oof
  | n + 1, attrs, toks => do
    let name ← nextIdent >>= expect
    let toks := toks ++ [name]
    let eof ← nextEof
    let p ← nextPunct
    if eof then pure (attrs ++ [toks])
    else if p = some ',' then attrLoop n (attrs ++ [toks]) []
    else do
      let value ← nextLiteral >>= expect
      let toks := toks ++ [value]
      let eof ← nextEof
      let p ← nextPunct
      if eof then pure (attrs ++ [toks])
      else if p = some ',' then attrLoop n (attrs ++ [toks]) []
      else attrLoop n attrs toks

/-- derive/src/parse.rs:1028-1111 `next_attribute`.  Note that the first `next_punct` consumes
any punctuation, also when it is not `#`. -/
def nextAttribute (n : Nat) : DM (Option (Option (List Attr))) := do
  let p ← nextPunct
  if p = some '#' then do
    let g ← nextGroup >>= expect
    onStream g.2 (do
      let name ← nextIdent >>= expect
      if name = "nserde".toList then do
        let a ← nextGroup >>= expect
        let as ← onStream a.2 (attrLoop n [] [])
        pure (some (some as))
      else pure (some none))
  else pure none

/-- derive/src/parse.rs:1113-1123: the loop of `next_attributes_list`. -/
def attributesLoop (k : Nat) : Nat → List Attr → DM (List Attr)
  | 0, _ => M.oof
  | n + 1, acc => do
    match ← nextAttribute k with
    | none => pure acc
    | some none => attributesLoop k n acc
    | some (some as) => attributesLoop k n (acc ++ as)

/-- derive/src/parse.rs:1113-1123 `next_attributes_list`. -/
def nextAttributesList (n : Nat) : DM (List Attr) := attributesLoop n n []

/-! ## Structs, enums, generics -/

/-- derive/src/parse.rs:1125-1159 `next_fields`; `k` bounds the attribute loops. -/
def nextFields (k : Nat) (ty : DM (Option PType)) (named : Bool) :
    Nat → List PField → DM (List PField)
  | 0, _ => M.oof
  | n + 1, acc => do
    if ← nextEof then pure acc
    else do
      let attrs ← nextAttributesList k
      nextVisibility
      let name ← (if named then do
          let i ← nextIdent >>= expect
          let c ← nextExactPunct ':'
          assert c
          pure (some i)
        else pure none : DM (Option Txt))
      let t ← ty >>= expect
      let _ ← nextPunct
      nextFields k ty named n (acc ++ [.mk attrs name t])

/-- derive/src/parse.rs:1273-1303 `next_const_generic`. -/
def nextConstGeneric (ty : DM (Option PType)) : DM Generic := do
  let name ← next >>= expect
  let colon ← next >>= expect
  assert (colon.text = ":".toList)
  let t ← ty >>= expect
  if ← nextExactPunct '=' then do
    let d ← peek >>= expect
    match parseIsize d.text with
    | some v => do
      let _ ← next
      pure (.const name.text t (some (.value v)))
    | none => do
      let d ← ty >>= expect
      pure (.const name.text t (some (.named d)))
  else pure (.const name.text t none)

/-- derive/src/parse.rs:1317-1324: `while let Some(bound) = next_type(source)` of a bound on a
type given by a group. -/
def boundsWhile (ty : DM (Option PType)) : Nat → List PType → DM (List PType)
  | 0, _ => M.oof
  | n + 1, acc => do
    match ← ty with
    | none => pure acc
    | some t => if ← nextExactPunct '+' then boundsWhile ty n (acc ++ [t]) else pure (acc ++ [t])

/-- derive/src/parse.rs:1347-1356: the bounds of a type parameter. -/
def boundsLoop (ty : DM (Option PType)) : Nat → List PType → DM (List PType)
  | 0, _ => M.oof
  | n + 1, acc => do
    let t ← ty
    let acc := acc ++ t.toList
    if ← nextExactPunct '+' then boundsLoop ty n acc else pure acc

/-- derive/src/parse.rs:1371-1378: the bounds of a lifetime parameter. -/
def lifetimeLoop : Nat → List Txt → DM (List Txt)
  | 0, _ => M.oof
  | n + 1, acc => do
    match ← nextLifetime with
    | none => pure acc
    | some l => if ← nextExactPunct '+' then lifetimeLoop n (acc ++ [l]) else pure (acc ++ [l])

/-- derive/src/parse.rs:1305-1387 `next_generic`. -/
def nextGeneric (n : Nat) (ty : DM (Option PType)) : DM (Option Generic) := do
  match ← peek with
  | none => pure none
  | some (.group .brace _) => pure none
  | some (.group _ _) => do
    let t ← ty >>= expect
    let bounds ← (do if ← nextExactPunct ':' then boundsWhile ty n [] else pure [] : DM (List PType))
    pure (some (.whereBounded t.full bounds))
  | some (.ident s) =>
    if s = "const".toList then do
      let _ ← next
      let g ← nextConstGeneric ty
      pure (some g)
    else do
      let t ← ty >>= expect
      let bounds ← (do if ← nextExactPunct ':' then boundsLoop ty n [] else pure [] : DM (List PType))
      let d ← (do
        if ← nextExactPunct '=' then do
          let d ← ty >>= expect
          pure (some d)
        else pure none : DM (Option PType))
      pure (some (.generic t.full d bounds))
  | some (.punct c) =>
    if c = '>' then pure none
    else if c = '\'' then do
      let l ← nextLifetime >>= expect
      let bounds ← (do if ← nextExactPunct ':' then lifetimeLoop n [] else pure [] : DM (List Txt))
      pure (some (.lifetime l bounds))
    else M.panic
  | some (.lit _) => M.panic

/-- derive/src/parse.rs:183-190 `Generic::full`. -/
def Generic.full : Generic → Txt
  | .const n _ _ => n
  | .generic n _ _ => n
  | .lifetime n _ => n
  | .whereBounded n _ => n

/-- The `match (existing, new)` of derive/src/parse.rs:1403-1429 and 1462-1488: bounds are
appended, kinds must agree. -/
def mergeGeneric : Generic → Generic → Option Generic
  | .generic n d b, .generic _ _ b' => some (.generic n d (b ++ b'))
  | .lifetime n b, .lifetime _ b' => some (.lifetime n (b ++ b'))
  | .whereBounded n b, .whereBounded _ b' => some (.whereBounded n (b ++ b'))
  | _, _ => none

/-- Update the first parameter with the name of `g` (`ret.iter_mut().find(..)`). -/
def mergeInto (g : Generic) : List Generic → Option (List Generic)
  | [] => none
  | x :: xs =>
    if x.full = g.full then (mergeGeneric x g).map (· :: xs)
    else (mergeInto g xs).map (x :: ·)

/-- derive/src/parse.rs:1398-1436: the loop over `<..>`.  The set `already` always holds the
names of the elements of `ret`, membership is tested on `ret`. -/
def genericsLoop (k : Nat) (ty : DM (Option PType)) : Nat → List Generic → DM (List Generic)
  | 0, _ => M.oof
  | n + 1, ret => do
    match ← nextGeneric k ty with
    | none => pure ret
    | some g => do
      let ret ← (if ret.any (fun x => x.full = g.full) then expect (mergeInto g ret)
        else pure (ret ++ [g]) : DM (List Generic))
      if ← nextExactPunct ',' then genericsLoop k ty n ret else pure ret

/-- derive/src/parse.rs:1450-1459: a parameter that only occurs in the `where` clause. -/
def whereGeneric : Generic → Option Generic
  | .generic n _ b => some (.whereBounded n b)
  | .whereBounded n b => some (.whereBounded n b)
  | _ => none

/-- derive/src/parse.rs:1448-1497: the loop over the `where` clause. -/
def whereLoop (k : Nat) (ty : DM (Option PType)) : Nat → List Generic → DM (List Generic)
  | 0, _ => M.oof
  | n + 1, ret => do
    match ← nextGeneric k ty with
    | none => pure ret
    | some g => do
      let ret ← (if ret.any (fun x => x.full = g.full) then expect (mergeInto g ret)
        else do
          let w ← expect (whereGeneric g)
          pure (ret ++ [w]) : DM (List Generic))
      if ← nextExactPunct ',' then do
        if ← nextExactPunct '{' then pure ret else whereLoop k ty n ret
      else pure ret

/-- derive/src/parse.rs:1389-1502 `get_all_bounds`. -/
def getAllBounds (n : Nat) (ty : DM (Option PType)) : DM (List Generic) := do
  let open? ← peek
  if open?.map TT.text = some "<".toList then do
    let _ ← next
    let ret ← genericsLoop n ty n []
    let gt ← nextExactPunct '>'
    assert gt
    match ← peek with
    | none => pure ret
    | some t =>
      if t.text = "where".toList then do
        let _ ← next
        whereLoop n ty n ret
      else pure ret
  else pure []

/-- derive/src/parse.rs:1161-1202 `next_struct`. -/
def nextStruct (n : Nat) (ty : DM (Option PType)) : DM PStruct := do
  let name ← nextIdent
  let generics ← getAllBounds n ty
  match ← nextGroup with
  | none => do
    let _ ← nextPunct
    pure (.mk name false [] [] generics)
  | some (.paren, ts) => do
    let fs ← onStream ts (nextFields n ty false n [])
    let semi ← nextExactPunct ';'
    assert semi
    pure (.mk name false fs [] generics)
  | some (.brace, ts) => do
    let fs ← onStream ts (nextFields n ty true n [])
    pure (.mk name true fs [] generics)
  | some (_, _) => M.panic

/-- derive/src/parse.rs:876-1026: `next_type` after the optional `&`, with `ty` for the recursive
calls. -/
def typeCore (n : Nat) (ty : DM (Option PType)) (refTy : Option (Option Txt)) :
    DM (Option PType) := do
  match ← peek with
  | some (.group .bracket ts) => do
    let _ ← next
    let t ← onStream ts (nextArray ty)
    pure (some (t.setRef refTy))
  | some (.group .paren ts) => do
    let _ ← next
    let t ← onStream ts (nextTuple n ty)
    pure (some (t.setRef refTy))
  | some (.group .brace _) => do
    let s ← nextStruct n ty
    pure (some (.mk (.anonymous s) (some (s.fields.map PField.ty)) refTy none))
  | some (.group .none _) => M.panic
  | _ => do
    match ← nextObject n ty with
    | some t => pure (some (t.setRef refTy))
    | none => do
      match ← nextFunctionLike ty with
      | some t => pure (some (t.setRef refTy))
      | none => do
        let t ← nextPathType n ty refTy
        pure (some t)

/-- derive/src/parse.rs:572-1026 `next_type`, with `ty` for the recursive calls. -/
def typeBody (n : Nat) (ty : DM (Option PType)) : DM (Option PType) := do
  if ← nextExactPunct ',' then pure none
  else if ← nextExactPunct '!' then pure (some (.mk .never none none none))
  else if ← nextExactPunct '\'' then do
    let l ← nextIdent >>= expect
    pure (some (.mk (.lifetime l) none none none))
  else if ← nextExactPunct '&' then do
    let l ← nextLifetime
    typeCore n ty (some l)
  else typeCore n ty none

/-- derive/src/parse.rs:572-1026 `next_type`.  The argument bounds the nesting and the length of
the loops (`oof` when it is too small). -/
def nextType : Nat → DM (Option PType)
  | 0 => M.oof
  | n + 1 => typeBody n (nextType n)

/-- derive/src/parse.rs:1220-1262: the loop of `next_enum` over the tokens between the braces. -/
def variantsLoop (k : Nat) (ty : DM (Option PType)) : Nat → List PField → DM (List PField)
  | 0, _ => M.oof
  | n + 1, acc => do
    if ← nextEof then pure acc
    else if ← nextExactPunct '=' then do
      let _ ← next
      let _ ← nextExactPunct ','
      variantsLoop k ty n acc
    else do
      let attrs ← nextAttributesList k
      let name ← nextIdent >>= expect
      match ← ty with
      | none => do
        let _ ← nextExactPunct ','
        variantsLoop k ty n (acc ++ [.mk attrs (some name) (.mk .none none none none)])
      | some t => do
        let _ ← nextExactPunct ';'
        let _ ← nextExactPunct ','
        variantsLoop k ty n (acc ++ [.mk attrs (some name) t])

/-- derive/src/parse.rs:1204-1271 `next_enum`. -/
def nextEnum (n : Nat) (ty : DM (Option PType)) : DM PEnum := do
  let name ← nextIdent >>= expect
  let generics ← getAllBounds n ty
  match ← nextGroup with
  | none => pure { name := name, variants := [], attributes := [], generics := [] }
  | some (_, ts) => do
    let vs ← onStream ts (variantsLoop n ty n [])
    pure { name := name, variants := vs, attributes := [], generics := generics }

/-- derive/src/parse.rs:1504-1539 `parse_data`.  The attributes are stored for structs only. -/
def parseData (n : Nat) : DM Data := do
  let attributes ← nextAttributesList n
  let pubOrType ← nextIdent >>= expect
  let keyword ← (if pubOrType = "pub".toList then nextIdent >>= expect else pure pubOrType : DM Txt)
  let res ← (if keyword = "struct".toList then do
      let s ← nextStruct n (nextType n)
      pure (.struct (s.setAttributes attributes))
    else if keyword = "enum".toList then do
      let e ← nextEnum n (nextType n)
      pure (.enum e)
    else M.panic : DM Data)
  let eof ← nextEof
  assert eof
  pure res

/-- A derive macro's first step on an item (derive/src/lib.rs:33, 52, ...). -/
def parseItem (n : Nat) (ts : List TT) : Out Empty (List TT) Data := parseData n ts

/-! ## Attribute lookups (`derive/src/shared.rs`) -/

/-- `attributes.iter().find_map(|a| a.tokens.len() == 2 && a.tokens[0] == key ..)`: the common
shape of derive/src/shared.rs:17-25 `attrs_proxy`, 27-36 `attrs_rename`, 51-60
`attrs_default_with`, 83-91 `attrs_crate`. -/
def attrValue (key : Txt) (as : List Attr) : Option Txt :=
  as.findSome? fun a =>
    match a with
    | [k, v] => if k = key then some v else none
    | _ => none

/-- `attributes.iter().any(|a| a.tokens.len() == 1 && a.tokens[0] == key)`: the common shape of
derive/src/shared.rs:62-67 `attrs_transparent`, 69-74 `attrs_skip`, 76-81
`attrs_serialize_none_as_null`. -/
def attrFlag (key : Txt) (as : List Attr) : Bool := as.any fun a => a = [key]

/-- derive/src/shared.rs:17-25. -/
def attrsProxy : List Attr → Option Txt := attrValue "proxy".toList
/-- derive/src/shared.rs:27-36. -/
def attrsRename : List Attr → Option Txt := attrValue "rename".toList
/-- derive/src/shared.rs:38-49. -/
def attrsDefault (as : List Attr) : Option (Option Txt) :=
  as.findSome? fun a =>
    match a with
    | [k] => if k = "default".toList then some none else none
    | [k, v] => if k = "default".toList then some (some v) else none
    | _ => none
/-- derive/src/shared.rs:51-60. -/
def attrsDefaultWith : List Attr → Option Txt := attrValue "default_with".toList
/-- derive/src/shared.rs:62-67. -/
def attrsTransparent : List Attr → Bool := attrFlag "transparent".toList
/-- derive/src/shared.rs:69-74. -/
def attrsSkip : List Attr → Bool := attrFlag "skip".toList
/-- derive/src/shared.rs:76-81. -/
def attrsNoneAsNull : List Attr → Bool := attrFlag "serialize_none_as_null".toList
/-- derive/src/shared.rs:83-91. -/
def attrsCrate : List Attr → Option Txt := attrValue "crate".toList

end NS.Derive
