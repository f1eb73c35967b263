import Verif.Model.DeriveGen
import Verif.Model.Ron

/-!
# The writers the derive macros generate, as programs

`derive/src/serde_*.rs` write Rust text.  Here that text is a program in a small language with one
constructor per form the generators use, together with what such a program does when it runs.  The
generators are modelled below, one Lean function per Rust function.

Simplified: the text itself (spelling and white space of the forms quoted at the constructors), the
nesting depth `d`, which the state ignores (`indent` is empty: src/serde_json.rs:21-25,
src/serde_ron.rs:16-20), and the `impl` header (see `Model/DeriveHeader`).
-/

namespace NS.Derive
open NS

/-- A value at a static type: the type as text and what it is. -/
structure TV where
  txt : Txt
  ty : Ty
  val : Val

/-- Expressions whose value is written. -/
inductive WExpr where
  /-- `x`, a variable bound by a pattern or a `let` -/
  | var (x : Txt)
  /-- `self.f` -/
  | self (f : Txt)
  /-- `{n}u16` -/
  | u16 (n : Nat)
  /-- `{let proxy: p = Into::into(&e);proxy}` -/
  | via (e : WExpr) (p : Txt)
  /-- `{e.as_ref().map(|f| {let proxy: p = Into::into(f);proxy})}` -/
  | viaOpt (e : WExpr) (p : Txt)

/-- Methods of the writer state that only append (src/serde_json.rs:27-57, src/serde_ron.rs:22-43). -/
inductive WOp where
  /-- `s.field(d+1, "k");` -/
  | field (k : Txt)
  /-- `s.label("k");` -/
  | label (k : Txt)
  /-- `s.conl();` -/
  | conl
  /-- `s.st_pre();` -/
  | stPre
  /-- `s.st_post(d);` -/
  | stPost
  /-- `s.out.push('c');` and `s.out.push_str("t");` -/
  | push (t : Txt)

/-- Statements. -/
inductive WStmt where
  /-- `let proxy: p = Into::into(&e);` (or `e.into()`) -/
  | letProxy (p : Txt) (e : WExpr)
  /-- `e.ser_bin(s);`, `e.ser_json(d, s);`, ... -/
  | write (e : WExpr)
  /-- `Option::<i32>::ser_json(&None, d+1, s);` -/
  | writeNone
  | op (o : WOp)
  /-- `let mut x = false;` -/
  | letFlag (x : Txt)
  /-- `x = true;` -/
  | setFlag (x : Txt)
  /-- `if x { body };` -/
  | ifFlag (x : Txt) (body : List WStmt)
  /-- `if e.is_some() { body }` -/
  | ifSome (e : WExpr) (body : List WStmt)
  /-- `if let Some(x) = &e { body } else { els }` -/
  | ifLet (x : Txt) (e : WExpr) (body els : List WStmt)

/-- The pattern of an arm of `match self`. -/
inductive WPat where
  /-- `Self::V` -/
  | unit (v : Txt)
  /-- `Self::V (x, y, )` -/
  | tuple (v : Txt) (xs : List Txt)
  /-- `Self::V { x, y, }` -/
  | named (v : Txt) (xs : List Txt)

/-- The body of the generated method. -/
inductive WBody where
  | stmts (ss : List WStmt)
  /-- `match self { .. }` -/
  | matchSelf (arms : List (WPat × List WStmt))

/-! ## Running -/

/-- What a generated writer runs in: the program, the writers of types, the state's methods. -/
structure WCtx (α : Type) where
  env : Env
  N : Names
  /-- `ser_bin`, `ser_json` or `ser_ron` at a type. -/
  ser : Ty → Val → List α
  op : WOp → List α
  /-- Do the methods take the depth `d`? -/
  deep : Bool

/-- The state of a run: variables, flags, and what has been appended. -/
structure WSt (α : Type) where
  vars : List (Txt × TV) := []
  flags : List (Txt × Bool) := []
  out : List α := []

/-- `Into::into(&v)` at the proxy type `p`.  (A value of a type with a proxy comes in the model with its
image; here the image is computed.) -/
def WCtx.into {α : Type} (C : WCtx α) (v : TV) (p : Txt) (x : Val) : Option TV :=
  match x, C.env.proxies[C.N.proxy v.txt p]? with
  | .prox o _, some px => some ⟨p, px.ty, px.into o⟩
  | _, _ => none

/-- The value of an expression; `none` is code that does not compile.  A variable of a pattern is a reference
already, so that `Into::into(&x)` asks for a conversion from `&&T`, which is not the one of the proxy (from
`&T`). -/
def WExpr.eval {α : Type} (C : WCtx α) (self : List (Txt × TV)) (vars : List (Txt × TV)) : WExpr → Option TV
  | .var x => vars.lookup x
  | .self f => self.lookup f
  | .u16 n => if n < 2 ^ 16 then some ⟨"u16".toList, .int .u16, .int n⟩ else none
  | .via (.self f) p => (self.lookup f).bind fun v => C.into v p v.val
  | .via _ _ => none
  | .viaOpt e p => (e.eval C self vars).bind fun v =>
      match v.val, C.env.proxies[C.N.proxy v.txt p]? with
      | .none, some px => some ⟨[], .option px.ty, .none⟩
      | .some x, some _ => (C.into v p x).map fun w => ⟨[], .option w.ty, .some w.val⟩
      | _, _ => none

/-- The parameters `s` and `d` are not shadowed by pattern variables. -/
def WCtx.sees {α : Type} (C : WCtx α) (vars : List (Txt × TV)) (usesD : Bool) : Bool :=
  (vars.lookup "s".toList).isNone && (!(C.deep && usesD) || (vars.lookup "d".toList).isNone)

/-- Does the method take `d`? -/
def WOp.usesD : WOp → Bool
  | .field _ => true
  | .stPost => true
  | _ => false

mutual
/-- A statement. -/
def WStmt.run {α : Type} (C : WCtx α) (self : List (Txt × TV)) : WStmt → WSt α → Option (WSt α)
  | .letProxy p e, st => ((e.eval C self st.vars).bind fun v => C.into v p v.val).map fun v =>
      { st with vars := ("proxy".toList, v) :: st.vars }
  | .write e, st => if C.sees st.vars true then
      (e.eval C self st.vars).map fun v => { st with out := st.out ++ C.ser v.ty v.val }
      else none
  | .writeNone, st => if C.sees st.vars true then
      some { st with out := st.out ++ C.ser (.option (.int .i32)) .none } else none
  | .op o, st => if C.sees st.vars o.usesD then some { st with out := st.out ++ C.op o } else none
  | .letFlag x, st => some { st with flags := (x, false) :: st.flags }
  | .setFlag x, st => (st.flags.lookup x).map fun _ => { st with flags := (x, true) :: st.flags }
  | .ifFlag x body, st =>
      match st.flags.lookup x with
      | some true => (runAll C self body st).map fun st' => { st' with vars := st.vars }
      | some false => some st
      | none => none
  | .ifSome e body, st =>
      match (e.eval C self st.vars).map TV.val with
      | some (Val.some _) => (runAll C self body st).map fun st' => { st' with vars := st.vars }
      | some Val.none => some st
      | _ => none
  | .ifLet x e body els, st =>
      match e.eval C self st.vars with
      | some ⟨_, .option t, .some v⟩ =>
        (runAll C self body { st with vars := (x, ⟨[], t, v⟩) :: st.vars }).map fun st' => { st' with vars := st.vars }
      | some ⟨_, .option _, .none⟩ => (runAll C self els st).map fun st' => { st' with vars := st.vars }
      | _ => none
/-- Statements in order. -/
def runAll {α : Type} (C : WCtx α) (self : List (Txt × TV)) : List WStmt → WSt α → Option (WSt α)
  | [], st => some st
  | x :: xs, st => (x.run C self st).bind (runAll C self xs)
end

/-- The value a writer is called on: the fields of a struct by name (`0`, `1`, .. in a tuple struct), or a
variant with its fields. -/
inductive WSelf where
  | struct (fields : List (Txt × TV))
  | variant (v : Txt) (kind : Option Bool) (fields : List (Txt × TV))

/-- The variables a pattern binds if it matches: by position in a tuple variant, by name in a struct variant
(all names must be there).  Outer `none`: another variant; inner: code that does not compile. -/
def WPat.bind (v : Txt) (kind : Option Bool) (fields : List (Txt × TV)) : WPat → Option (Option (List (Txt × TV)))
  | .unit w => if w = v then some (if kind = none then some [] else none) else none
  | .tuple w xs =>
    if w = v then some (if kind = some false ∧ xs.length = fields.length then some (xs.zip (fields.map Prod.snd)) else none)
    else none
  | .named w xs =>
    if w = v then some (if kind = some true ∧ xs.length = fields.length then
      allSome (xs.map fun x => (fields.lookup x).map fun t => (x, t)) else none)
    else none

/-- The first arm whose pattern matches. -/
def runArms {α : Type} (C : WCtx α) (v : Txt) (kind : Option Bool) (fields : List (Txt × TV)) :
    List (WPat × List WStmt) → Option (List α)
  | [] => none
  | (p, ss) :: arms =>
    match p.bind v kind fields with
    | some (some vars) => (runAll C [] ss { vars := vars }).map (·.out)
    | some none => none
    | none => runArms C v kind fields arms

/-- What the method appends. -/
def WBody.run {α : Type} (C : WCtx α) : WBody → WSelf → Option (List α)
  | .stmts ss, .struct fields => (runAll C fields ss {}).map (·.out)
  | .matchSelf arms, .variant v kind fields => runArms C v kind fields arms
  | _, _ => none

/-! ## The values -/

/-- A named field of the item, with its declared type. -/
def fieldTV (N : Names) (f : PField) (v : Val) : Txt × TV := (f.name.getD [], ⟨f.ty.full, N.ty f.ty.full, v⟩)

/-- The components of a tuple. -/
def tupleTV (N : Names) : Nat → List PType → List Val → List (Txt × TV)
  | n, t :: ts, v :: vs => (showNat n, ⟨t.full, N.ty t.full, v⟩) :: tupleTV N (n + 1) ts vs
  | _, _, _ => []

/-- `self` in the writer of a struct. -/
def structSelf (N : Names) (s : PStruct) (vs : List Val) : WSelf :=
  if s.named then .struct (List.zipWith (fieldTV N) s.fields vs)
  else .struct (tupleTV N 0 (s.fields.map (·.ty)) vs)

/-- `self` in the writer of an enum, at the variant `w`. -/
def variantSelf (N : Names) (w : PField) (vs : List Val) : WSelf :=
  match w.ty.cat with
  | .anonymous s => .variant (w.name.getD []) (some true) (List.zipWith (fieldTV N) s.fields vs)
  | .tuple ts => .variant (w.name.getD []) (some false) (tupleTV N 0 ts vs)
  | _ => .variant (w.name.getD []) none []

/-- The binary writer state. -/
def binW (env : Env) (N : Names) : WCtx Byte where
  env := env
  N := N
  ser := serBin env
  op := fun _ => []
  deep := false

/-- The JSON writer state (src/serde_json.rs:27-57). -/
def jsonW (env : Env) (N : Names) (fl : FloatOps) : WCtx Char where
  env := env
  N := N
  ser := serJson env fl
  op := fun
    | .field k => '"' :: (k ++ ['"', ':'])
    | .label k => '"' :: (k ++ ['"'])
    | .conl => [',']
    | .stPre => ['{']
    | .stPost => ['}']
    | .push t => t
  deep := true

/-- The RON writer state (src/serde_ron.rs:22-43; it has no `label`). -/
def ronW (env : Env) (N : Names) (fl : FloatOps) : WCtx Char where
  env := env
  N := N
  ser := serRon env fl
  op := fun
    | .field k => k ++ [':']
    | .label _ => []
    | .conl => [',']
    | .stPre => ['(']
    | .stPost => [')']
    | .push t => t
  deep := true

/-! ## The generators -/

/-- The name of a named field (`field.field_name.as_ref().unwrap()`; the parser always sets it). -/
def PField.nm (f : PField) : Txt := f.name.getD []

/-- `f{n}`. -/
def fN (n : Nat) : Txt := 'f' :: showNat n

/-- derive/src/serde_bin.rs:11-23, serde_json.rs:14-26, serde_ron.rs:14-26. -/
def genSerProxy (p : Txt) : WBody := .stmts [.letProxy p (.self "self".toList), .write (.var "proxy".toList)]

/-- The statements for one field (derive/src/serde_bin.rs:44-60, 91-96). -/
def genSerBinField (f : PField) (at_ : Txt) : List WStmt :=
  match attrsProxy f.attributes with
  | some p => [.letProxy p (.self at_), .write (.var "proxy".toList)]
  | none => [.write (.self at_)]

/-- derive/src/serde_bin.rs:39-78 `derive_ser_bin_struct`. -/
def genSerBinStruct (s : PStruct) : WBody :=
  .stmts ((s.fields.filter fun f => !attrsSkip f.attributes).flatMap fun f => genSerBinField f f.nm)

/-- The loop of derive/src/serde_bin.rs:85-97 from the field with number `n` on. -/
def genSerBinTupleFrom : Nat → List PField → List WStmt
  | _, [] => []
  | n, f :: fs =>
    (if attrsSkip f.attributes then [] else genSerBinField f (showNat n)) ++ genSerBinTupleFrom (n + 1) fs

/-- derive/src/serde_bin.rs:80-116 `derive_ser_bin_struct_unnamed`. -/
def genSerBinTuple (s : PStruct) : WBody := .stmts (genSerBinTupleFrom 0 s.fields)

/-- One arm of derive/src/serde_bin.rs:232-287; `none` is the `unimplemented!`. -/
def genSerBinArm (index : Nat) (v : PField) : Option (WPat × List WStmt) :=
  match v.ty.cat, v.ty.wraps with
  | .none, none => some (.unit v.nm, [.write (.u16 index)])
  | .tuple ts, _ =>
    some (.tuple v.nm ((List.range ts.length).map fN),
      .write (.u16 index) :: (List.range ts.length).map fun n => .write (.var (fN n)))
  | .anonymous s, _ =>
    some (.named v.nm (s.fields.map (·.nm)), .write (.u16 index) :: s.fields.map fun f => .write (.var f.nm))
  | _, _ => none

/-- The arms from the variant with number `n` on. -/
def genArmsFrom {β : Type} (g : Nat → PField → Option β) : Nat → List PField → Option (List β)
  | _, [] => some []
  | n, v :: vs => (g n v).bind fun a => (genArmsFrom g (n + 1) vs).map (a :: ·)

/-- derive/src/serde_bin.rs:228-305 `derive_ser_bin_enum`. -/
def genSerBinEnum (e : PEnum) : Option WBody := (genArmsFrom genSerBinArm 0 e.variants).map .matchSelf

/-- derive/src/serde_json.rs:28-40 `ser_proxy_guard`. -/
def serProxyGuard (e : WExpr) (f : PField) : WExpr :=
  match attrsProxy f.attributes with
  | some p => if f.ty.base = "Option".toList then .viaOpt e p else .via e p
  | none => e

/-- The flag variable. -/
def firstFlag : Txt := "first_field_was_serialized".toList

/-- derive/src/serde_json.rs:63-70, 94-98. -/
def fieldHeader (k : Txt) : List WStmt := [.ifFlag firstFlag [.op .conl], .setFlag firstFlag, .op (.field k)]

/-- The statements for one field of a struct with the attributes `as` (derive/src/serde_json.rs:50-105). -/
def genSerJsonField (as : List Attr) (f : PField) : List WStmt :=
  let k := (attrsRename f.attributes).getD f.nm
  if attrsSkip f.attributes then []
  else
    let e := serProxyGuard (.self f.nm) f
    if f.ty.base = "Option".toList then
      if (attrsNoneAsNull f.attributes || attrsNoneAsNull as) && (attrsProxy f.attributes).isNone then
        fieldHeader k ++ [.ifLet "t".toList e [.write (.var "t".toList)] [.writeNone]]
      else [.ifLet "t".toList e (fieldHeader k ++ [.write (.var "t".toList)]) []]
    else fieldHeader k ++ [.write e]

/-- derive/src/serde_json.rs:42-130 `derive_ser_json_struct`. -/
def genSerJsonStruct (s : PStruct) : WBody :=
  .stmts (.op .stPre :: (.letFlag firstFlag :: s.fields.flatMap (genSerJsonField s.attributes)) ++ [.op .stPost])

/-- The members of a struct variant (derive/src/serde_json.rs:330-368): the last one is not followed by
`s.conl()`. -/
def genSerJsonItems : List PField → List WStmt
  | [] => []
  | f :: fs =>
    let w : List WStmt := [.op (.field f.nm), .write (serProxyGuard (.var f.nm) f)] ++ if fs.isEmpty then [] else [.op .conl]
    (if f.ty.base = "Option".toList then [.ifSome (.var f.nm) w] else w) ++ genSerJsonItems fs

/-- `f{i}.ser(..)` with `sep` between them (derive/src/serde_json.rs:390-399, serde_ron.rs:398-406). -/
def genTupleItems (sep : Txt) : Nat → Nat → List WStmt
  | _, 0 => []
  | i, 1 => [.write (.var (fN i))]
  | i, n + 2 => .write (.var (fN i)) :: .op (.push sep) :: genTupleItems sep (i + 1) (n + 1)

/-- One arm of derive/src/serde_json.rs:303-421; an empty tuple makes `contents.len() - 1` overflow. -/
def genSerJsonArm (v : PField) : Option (WPat × List WStmt) :=
  let k := (attrsRename v.attributes).getD v.nm
  match v.ty.cat, v.ty.wraps with
  | .none, none => some (.unit v.nm, [.op (.label k)])
  | .anonymous s, _ =>
    some (.named v.nm (s.fields.map (·.nm)),
      [.op (.push ['{']), .op (.label k), .op (.push [':']), .op .stPre] ++ genSerJsonItems s.fields ++
        [.op .stPost, .op (.push ['}'])])
  | .tuple [], _ => none
  | .tuple ts, _ =>
    some (.tuple v.nm ((List.range ts.length).map fN),
      [.op (.push ['{']), .op (.label k), .op (.push [':']), .op (.push ['['])] ++ genTupleItems [','] 0 ts.length ++
        [.op (.push [']']), .op (.push ['}'])])
  | _, _ => none

/-- derive/src/serde_json.rs:299-438 `derive_ser_json_enum`. -/
def genSerJsonEnum (e : PEnum) : Option WBody := (genArmsFrom (fun _ => genSerJsonArm) 0 e.variants).map .matchSelf

/-- `self.{i}.ser(..)` with `, ` between them (derive/src/serde_json.rs:576-581). -/
def genSelfItems : Nat → Nat → List WStmt
  | _, 0 => []
  | i, 1 => [.write (.self (showNat i))]
  | i, n + 2 => .write (.self (showNat i)) :: .op (.push [',', ' ']) :: genSelfItems (i + 1) (n + 1)

/-- derive/src/serde_json.rs:554-603 `derive_ser_json_struct_unnamed`. -/
def genSerJsonTuple (s : PStruct) : WBody :=
  if s.fields.isEmpty then .stmts [.op (.push ['{']), .op (.push ['}'])]
  else if attrsTransparent s.attributes ∧ s.fields.length = 1 then .stmts [.write (.self (showNat 0))]
  else .stmts ([.op (.push ['['])] ++ genSelfItems 0 s.fields.length ++ [.op (.push [']'])])

/-- The statements for one field (derive/src/serde_ron.rs:47-76). -/
def genSerRonField (f : PField) : List WStmt :=
  let k := (attrsRename f.attributes).getD f.nm
  if f.ty.base = "Option".toList then
    [.ifLet "t".toList (.self f.nm) [.op (.field k), .write (.var "t".toList), .op .conl] []]
  else [.op (.field k), .write (.self f.nm), .op .conl]

/-- derive/src/serde_ron.rs:42-100 `derive_ser_ron_struct`. -/
def genSerRonStruct (s : PStruct) : WBody :=
  .stmts (.op .stPre :: (s.fields.filter fun f => !attrsSkip f.attributes).flatMap genSerRonField ++ [.op .stPost])

/-- The loop of derive/src/serde_ron.rs:108-118 from the field with number `n` on; `last` is the number of
the last field, skipped or not. -/
def genSerRonTupleFrom (last : Nat) : Nat → List PField → List WStmt
  | _, [] => []
  | n, f :: fs =>
    (if attrsSkip f.attributes then []
     else .write (.self (showNat n)) :: if n = last then [] else [.op (.push [',', ' '])]) ++
    genSerRonTupleFrom last (n + 1) fs

/-- derive/src/serde_ron.rs:102-140 `derive_ser_ron_struct_unnamed`: without fields `len() - 1` overflows. -/
def genSerRonTuple (s : PStruct) : Option WBody :=
  if s.fields.isEmpty then none
  else some (.stmts (.op (.push ['(']) :: genSerRonTupleFrom (s.fields.length - 1) 0 s.fields ++ [.op (.push [')'])]))

/-- The members of a struct variant (derive/src/serde_ron.rs:351-378). -/
def genSerRonItem (f : PField) : List WStmt :=
  let w : List WStmt := [.op (.field f.nm), .write (.var f.nm), .op .conl]
  if f.ty.base = "Option".toList then [.ifSome (.var f.nm) w] else w

/-- One arm of derive/src/serde_ron.rs:336-425. -/
def genSerRonArm (v : PField) : Option (WPat × List WStmt) :=
  match v.ty.cat with
  | .none => some (.unit v.nm, [.op (.push v.nm)])
  | .anonymous s =>
    some (.named v.nm (s.fields.map (·.nm)),
      [.op (.push v.nm), .op .stPre] ++ s.fields.flatMap genSerRonItem ++ [.op .stPost])
  | .tuple [] => none
  | .tuple ts =>
    some (.tuple v.nm ((List.range ts.length).map fN),
      [.op (.push v.nm), .op (.push ['('])] ++ genTupleItems [','] 0 ts.length ++ [.op (.push [')'])])
  | _ => none

/-- derive/src/serde_ron.rs:332-439 `derive_ser_ron_enum`. -/
def genSerRonEnum (e : PEnum) : Option WBody := (genArmsFrom (fun _ => genSerRonArm) 0 e.variants).map .matchSelf

/-- derive/src/lib.rs:41-46, 81-86, 121-128: the writer generated for an item without a container proxy; `none`
is a panic of the macro. -/
def genSer (fmt : Fmt) : Data → Option WBody
  | .struct s =>
    match fmt, s.named with
    | .bin, true => some (genSerBinStruct s)
    | .bin, false => some (genSerBinTuple s)
    | .json, true => some (genSerJsonStruct s)
    | .json, false => some (genSerJsonTuple s)
    | .ron, true => some (genSerRonStruct s)
    | .ron, false => genSerRonTuple s
  | .enum e =>
    match fmt with
    | .bin => genSerBinEnum e
    | .json => genSerJsonEnum e
    | .ron => genSerRonEnum e

/-- derive/src/lib.rs:30-47, 71-88, 111-129 `derive_ser_bin`, `derive_ser_ron`, `derive_ser_json`: the writer
generated for an item. -/
def deriveSer (fmt : Fmt) (d : Data) : Option WBody :=
  match itemProxy d with
  | some p => some (genSerProxy p)
  | none => genSer fmt d

end NS.Derive
