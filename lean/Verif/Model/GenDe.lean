import Verif.Model.GenWrite

/-!
# The readers the derive macros generate, as programs

As in `Model/GenWrite`, the text the generators write is a program in a small language, with what
it does when it runs, and the generators are modelled one by one.  A piece of code that does not
compile (a wrong constructor, a field missing in a literal, an unknown variable) has no run; like
every other non-program of the model it is `M.oof` at every fuel, which no reader of a type is.

The types of the calls `DeX::de_x(..)?` are inferred by rustc; here the type a call is made at is the
type the place of its result demands (the declared type of the field it initialises; for a local
variable, the annotation, or the field that the variable initialises; behind a conversion
`From::<&P>::from(&t)`, the proxy type `P`).

Simplified: spelling and white space; `_{name}` of a raw identifier (which is not an identifier).
-/

namespace NS.Derive
open NS

/-- Methods of the reader state (src/serde_json.rs:272-395, src/serde_ron.rs:263-376), followed by
`?`. -/
inductive ROp where
  | curlyOpen | curlyClose | blockOpen | blockClose | parenOpen | parenClose
  | eatCommaCurly | eatCommaBlock | eatCommaParen
  | colon | nextColon | string | ident | wholeField

/-- What is done with a value `t` that was read: `t`, `From::<&p>::from(&t)`,
`Some(From::<&p>::from(&t))`. -/
inductive RConv where
  | id
  | from_ (p : Txt)
  | someFrom (p : Txt)

/-- Initialisers. -/
inductive RInit where
  /-- `DeX::de_x(..)?` -/
  | call
  /-- `{let proxy: p = DeX::de_x(..)?; Into::into(&proxy)}` -/
  | via (p : Txt)
  /-- `{let r = DeX::de_x(..)?; s.o(i)?; r}` -/
  | callThen (o : ROp)
  /-- any other expression, as text -/
  | code (e : Txt)
  /-- `x.map_or_else(|| e, |t| c)` -/
  | mapOrElse (x : Txt) (e : Txt) (c : RConv)
  /-- `x.map(|t| c).unwrap_or_default()` -/
  | mapOrDefault (x : Txt) (c : RConv)
  /-- `x.map(|t| c).ok_or_else(|| s.err_nf("k"))?` -/
  | mapOrErr (x : Txt) (c : RConv) (k : Txt)
  /-- `x.unwrap_or_else(|| e)` -/
  | orElse (x : Txt) (e : Txt)
  /-- `x.ok_or_else(|| s.err_nf("k"))?` -/
  | orErr (x : Txt) (k : Txt)

/-- Constructions; a path is the list of its segments. -/
inductive RCons where
  /-- `P { f: e, .. }` -/
  | lit (path : List Txt) (inits : List (Txt × RInit))
  /-- `P(e, ..)` -/
  | app (path : List Txt) (inits : List RInit)
  /-- `P` -/
  | unit (path : List Txt)

/-- Statements without statements inside. -/
inductive RBase where
  /-- `s.o(i)?;` -/
  | op (o : ROp)
  /-- `x = Some(DeX::de_x(s, i)?);` -/
  | setSome (x : Txt)
  /-- `return Err(s.err_exp(&s.buf));` -/
  | failKey

/-- Statements. -/
inductive RStmt where
  | base (b : RBase)
  /-- `let mut x = None;`, `let mut x: Option<t> = None;` -/
  | letNone (x : Txt) (ty : Option Txt)
  /-- `while s.next_str().is_some() { match buf { "k" => {..}, .. _ => {..} } after }`, possibly
  without the `match` -/
  | whileKey (arms : Option (List (Txt × List RBase) × List RBase)) (after : List RBase)

/-- `{ pre let r = e; post r }`. -/
structure RBlock where
  pre : List RStmt := []
  e : RCons
  post : List ROp := []

/-- `pre let r = match buf { "k" => block, .. _ => return Err(s.err_enum(&s.buf)) }; post r`. -/
structure RSel where
  pre : List ROp
  arms : List (Txt × RBlock)
  post : List ROp := []

/-- The patterns of `match s.tok`. -/
inductive RTok where
  | curlyOpen | str

/-- The body of the generated method. -/
inductive RProg where
  | block (b : RBlock)
  /-- `let id: u16 = DeBin::de_bin(o, d)?; match id { 0u16 => .., unknown => return Err(..) }` -/
  | matchId (arms : List (Nat × RCons))
  | sel (s : RSel)
  /-- `match s.tok { .. _ => Err(s.err_token("String or {")) }` -/
  | matchTok (arms : List (RTok × RSel))
  /-- in an impl for the type written `t`: `let proxy: p = DeX::de_x(..)?; Ok(Into::into(&proxy))` -/
  | proxy (t p : Txt)
  /-- `let proxy: p = DeRon::deserialize_ron(i)?; Ok(Into::into(&proxy))`, where `i` is a `&mut Chars`: does not
  compile, since `deserialize_ron` takes a `&str` -/
  | proxyOfChars (p : Txt)

/-! ## Running -/

/-- What a path of a construction stands for: the kind (`some true` with named fields, `some false`
with a tuple, `none` a unit), the fields with the texts of their types, and the constructor. -/
structure RTarget where
  kind : Option Bool
  fields : List (Txt × Txt)
  build : List Val → Val

/-- What a generated reader runs in. -/
structure RCtx (ε σ : Type) where
  env : Env
  N : Names
  /-- The constructors of the item. -/
  target : List Txt → Option RTarget
  /-- `de_bin`, `de_json` or `de_ron` at a type, with fuel. -/
  de : Nat → Ty → M ε σ Val
  fuel : Nat
  op : ROp → M ε σ Unit
  /-- `s.next_str().is_some()`, `s.next_ident().is_some()` -/
  key : σ → Bool
  /-- `s.strbuf`, `s.identbuf` -/
  buf : σ → Txt
  tok : RTok → σ → Bool
  errNf : Txt → σ → ε
  errExp : Txt → σ → ε
  errEnum : Txt → σ → ε
  errTok : σ → ε
  errId : Nat → σ → ε

namespace RCtx
variable {ε σ : Type} (C : RCtx ε σ)

/-- `return Err(e)`. -/
def fail {α : Type} (e : σ → ε) : M ε σ α := fun st => .err (e st) st

/-- A call at the type written `t`, or at the proxy type written `t` (one unit of fuel more, as for
`Ty.proxied`). -/
def call (viaProxy : Bool) (t : Txt) : M ε σ Val :=
  if viaProxy then
    match C.fuel with
    | 0 => M.oof
    | n + 1 => C.de n (C.N.ty t)
  else C.de C.fuel (C.N.ty t)

/-- `From::<&p>::from(&v)` at the type written `t`. -/
def back (t p : Txt) (v : Val) : Option Val :=
  (C.env.proxies[C.N.proxy t p]?).map fun px => .prox (px.back v) (px.into (px.back v))

end RCtx

/-- The value of a conversion at the type written `t`. -/
def RConv.apply {ε σ : Type} (C : RCtx ε σ) (t : Txt) (v : Val) : RConv → Option Val
  | .id => some v
  | .from_ p => C.back t p v
  | .someFrom p => (C.back t p v).map .some

/-- A value, if there is one. -/
def M.ofOption {ε σ α : Type} : Option α → M ε σ α
  | some a => pure a
  | none => M.oof

/-- Local variables. -/
abbrev Locals := List (Txt × Option Val)

/-- An initialiser of a place of the type written `t`. -/
def RInit.run {ε σ : Type} (C : RCtx ε σ) (L : Locals) (t : Txt) : RInit → M ε σ Val
  | .call => C.call false t
  | .via p => do
    let v ← C.call true p
    M.ofOption (C.back t p v)
  | .callThen o => do
    let v ← C.call false t
    C.op o
    pure v
  | .code e => pure (C.N.expr t e)
  | .mapOrElse x e c =>
    match L.lookup x with
    | some (some v) => M.ofOption (c.apply C t v)
    | some none => pure (C.N.expr t e)
    | none => M.oof
  | .mapOrDefault x c =>
    match L.lookup x with
    | some (some v) => M.ofOption (c.apply C t v)
    | some none => pure (C.N.dflt t)
    | none => M.oof
  | .mapOrErr x c k =>
    match L.lookup x with
    | some (some v) => M.ofOption (c.apply C t v)
    | some none => RCtx.fail (C.errNf k)
    | none => M.oof
  | .orElse x e =>
    match L.lookup x with
    | some (some v) => pure v
    | some none => pure (C.N.expr t e)
    | none => M.oof
  | .orErr x k =>
    match L.lookup x with
    | some (some v) => pure v
    | some none => RCtx.fail (C.errNf k)
    | none => M.oof

/-- Initialisers by name, in the order written. -/
def runLit {ε σ : Type} (C : RCtx ε σ) (L : Locals) (fields : List (Txt × Txt)) :
    List (Txt × RInit) → M ε σ (List (Txt × Val))
  | [] => pure []
  | (f, e) :: es =>
    match fields.lookup f with
    | some t => do
      let v ← e.run C L t
      let vs ← runLit C L fields es
      pure ((f, v) :: vs)
    | none => M.oof

/-- Initialisers by position. -/
def runApp {ε σ : Type} (C : RCtx ε σ) (L : Locals) : List (Txt × Txt) → List RInit → M ε σ (List Val)
  | [], [] => pure []
  | (_, t) :: fs, e :: es => do
    let v ← e.run C L t
    let vs ← runApp C L fs es
    pure (v :: vs)
  | _, _ => M.oof

/-- All fields, in the order of the declaration. -/
def inOrder (fields : List (Txt × Txt)) (vs : List (Txt × Val)) : Option (List Val) :=
  if fields.length = vs.length then allSome (fields.map fun f => vs.lookup f.1) else none

/-- A construction. -/
def RCons.run {ε σ : Type} (C : RCtx ε σ) (L : Locals) : RCons → M ε σ Val
  | .lit path es =>
    match C.target path with
    | some t => do
      let vs ← runLit C L t.fields es
      let ws ← M.ofOption (inOrder t.fields vs)
      pure (t.build ws)
    | none => M.oof
  | .app path es =>
    match C.target path with
    | some t =>
      if t.kind = some false then do
        let vs ← runApp C L t.fields es
        pure (t.build vs)
      else M.oof
    | none => M.oof
  | .unit path =>
    match C.target path with
    | some t => if t.kind = none then pure (t.build []) else M.oof
    | none => M.oof

/-- The type at which the variable `x` is read, if it initialises a place of the type written `t`. -/
def RInit.wants (x t : Txt) : RInit → Option (Bool × Txt)
  | .mapOrElse y _ c | .mapOrDefault y c | .mapOrErr y c _ =>
    if y = x then
      some (match c with
        | .id => (false, t)
        | .from_ p => (true, p)
        | .someFrom p => (true, p))
    else none
  | .orElse y _ | .orErr y _ => if y = x then some (false, t) else none
  | _ => none

/-- The inferred type of `x`. -/
def RCons.infer {ε σ : Type} (C : RCtx ε σ) (x : Txt) : RCons → Option (Bool × Txt)
  | .lit path es =>
    match C.target path with
    | some t => es.findSome? fun e => (t.fields.lookup e.1).bind fun ty => e.2.wants x ty
    | none => none
  | _ => none

/-- The annotation of `x`. -/
def annotation (x : Txt) : List RStmt → Option Txt
  | [] => none
  | .letNone y t :: ss => if y = x then t else annotation x ss
  | _ :: ss => annotation x ss

/-- The type of the calls whose result is stored in `x`. -/
def RBlock.tyOf {ε σ : Type} (C : RCtx ε σ) (b : RBlock) (x : Txt) : Option (Bool × Txt) :=
  match annotation x b.pre with
  | some t => some (false, t)
  | none => b.e.infer C x

/-- A statement without statements inside. -/
def RBase.run {ε σ : Type} (C : RCtx ε σ) (ty : Txt → Option (Bool × Txt)) : RBase → Locals → M ε σ Locals
  | .op o, L => do
    C.op o
    pure L
  | .setSome x, L =>
    match L.lookup x, ty x with
    | some _, some (p, t) => do
      let v ← C.call p t
      pure ((x, some v) :: L)
    | _, _ => M.oof
  | .failKey, _ => RCtx.fail fun st => C.errExp (C.buf st) st

/-- Statements in order. -/
def runBases {ε σ : Type} (C : RCtx ε σ) (ty : Txt → Option (Bool × Txt)) : List RBase → Locals → M ε σ Locals
  | [], L => pure L
  | b :: bs, L => do
    let L' ← b.run C ty L
    runBases C ty bs L'

/-- The `match` on the key. -/
def runKeyArms {ε σ : Type} (C : RCtx ε σ) (ty : Txt → Option (Bool × Txt))
    (arms : Option (List (Txt × List RBase) × List RBase)) (key : Txt) (L : Locals) : M ε σ Locals :=
  match arms with
  | none => pure L
  | some (as, other) => runBases C ty ((as.lookup key).getD other) L

/-- The body of the loop. -/
def runMember {ε σ : Type} (C : RCtx ε σ) (ty : Txt → Option (Bool × Txt))
    (arms : Option (List (Txt × List RBase) × List RBase)) (after : List RBase) (L : Locals) : M ε σ Locals := do
  let st ← M.get
  let L' ← runKeyArms C ty arms (C.buf st) L
  runBases C ty after L'

/-- `while cond { body }`. -/
def loopM {ε σ α : Type} (cond : σ → Bool) (body : α → M ε σ α) : Nat → α → M ε σ α
  | 0, _ => M.oof
  | n + 1, a => do
    let st ← M.get
    if cond st then do
      let a' ← body a
      loopM cond body n a'
    else pure a

/-- A statement. -/
def RStmt.run {ε σ : Type} (C : RCtx ε σ) (ty : Txt → Option (Bool × Txt)) : RStmt → Locals → M ε σ Locals
  | .base b, L => b.run C ty L
  | .letNone x _, L => pure ((x, none) :: L)
  | .whileKey arms after, L => loopM C.key (runMember C ty arms after) C.fuel L

/-- Statements in order. -/
def runStmts {ε σ : Type} (C : RCtx ε σ) (ty : Txt → Option (Bool × Txt)) : List RStmt → Locals → M ε σ Locals
  | [], L => pure L
  | s :: ss, L => do
    let L' ← s.run C ty L
    runStmts C ty ss L'

/-- Operations in order. -/
def runOps {ε σ : Type} (C : RCtx ε σ) : List ROp → M ε σ Unit
  | [] => pure ()
  | o :: os => do
    C.op o
    runOps C os

/-- A block. -/
def RBlock.run {ε σ : Type} (C : RCtx ε σ) (b : RBlock) : M ε σ Val := do
  let L ← runStmts C (b.tyOf C) b.pre []
  let v ← b.e.run C L
  runOps C b.post
  pure v

/-- A selection by name. -/
def RSel.run {ε σ : Type} (C : RCtx ε σ) (s : RSel) : M ε σ Val := do
  runOps C s.pre
  let st ← M.get
  match s.arms.lookup (C.buf st) with
  | some b => do
    let v ← b.run C
    runOps C s.post
    pure v
  | none => RCtx.fail (C.errEnum (C.buf st))

/-- The first arm for the current token. -/
def runToks {ε σ : Type} (C : RCtx ε σ) : List (RTok × RSel) → M ε σ Val
  | [] => RCtx.fail C.errTok
  | (t, s) :: arms => do
    let st ← M.get
    if C.tok t st then s.run C else runToks C arms

/-- The whole body. -/
def RProg.run {ε σ : Type} (C : RCtx ε σ) : RProg → M ε σ Val
  | .block b => b.run C
  | .matchId arms =>
    if arms.all fun a => decide (a.1 < 2 ^ 16) then do
      let id ← C.de 1 (.int .u16)
      match id with
      | .int i =>
        match arms.lookup i.toNat with
        | some e => e.run C []
        | none => RCtx.fail (C.errId i.toNat)
      | _ => M.oof
    else M.oof
  | .sel s => s.run C
  | .matchTok arms => runToks C arms
  | .proxy t p => (RInit.via p).run C [] t
  | .proxyOfChars _ => M.oof

/-- The binary reader (no methods: the state is the offset). -/
def binR (env : Env) (N : Names) (target : List Txt → Option RTarget) (chk : Bool) (d : List Byte) (fuel : Nat) :
    RCtx BinErr Nat where
  env := env
  N := N
  target := target
  de := deBin env chk d
  fuel := fuel
  op := fun _ => pure ()
  key := fun _ => false
  buf := fun _ => []
  tok := fun _ _ => false
  errNf := fun _ _ => ⟨0, .unknownDiscriminant 0⟩
  errExp := fun _ _ => ⟨0, .unknownDiscriminant 0⟩
  errEnum := fun _ _ => ⟨0, .unknownDiscriminant 0⟩
  errTok := fun _ => ⟨0, .unknownDiscriminant 0⟩
  errId := fun i _ => ⟨0, .unknownDiscriminant i⟩

/-- The state's methods (src/serde_json.rs:272-395, src/serde_ron.rs:263-376). -/
def textOp (nx : PM Unit) (n : Nat) : ROp → PM Unit
  | .curlyOpen => curlyOpen nx
  | .curlyClose => curlyClose nx
  | .blockOpen => blockOpen nx
  | .blockClose => blockClose nx
  | .parenOpen => parenOpen nx
  | .parenClose => parenClose nx
  | .eatCommaCurly => eatCommaCurly nx
  | .eatCommaBlock => eatCommaBlock nx
  | .eatCommaParen => eatCommaParen nx
  | .colon => colon nx
  | .nextColon => nextColon nx
  | .string => expectTok nx .str "String"
  | .ident => expectTok nx .ident "Identifier"
  | .wholeField => wholeField nx n

/-- `DeJsonErr { msg, line: s.line, col: s.col }`. -/
def errAt (f : PSt → Reason) (st : PSt) : PErr := ⟨st.cur.line, st.cur.col, f st⟩

/-- The text readers; `kt` is the token of a key, `buf` where its text is. -/
def textR (env : Env) (N : Names) (target : List Txt → Option RTarget) (nx : PM Unit) (de : Nat → Ty → PM Val)
    (kt : Tok) (buf : PSt → Txt) (fuel : Nat) : RCtx PErr PSt where
  env := env
  N := N
  target := target
  de := de
  fuel := fuel
  op := textOp nx fuel
  key := fun st => st.tok == kt
  buf := buf
  tok := fun t st => st.tok == (match t with | .curlyOpen => Tok.curlyOpen | .str => Tok.str)
  errNf := fun k => errAt fun _ => .missingKey k
  errExp := fun k => errAt fun _ => .unexpectedKey k
  errEnum := fun k => errAt fun _ => .noSuchEnum k
  errTok := errAt fun st => .unexpectedToken st.tok "String or {".toList
  errId := fun _ => errAt fun _ => .noSuchEnum []

/-- The JSON reader. -/
def jsonR (env : Env) (N : Names) (target : List Txt → Option RTarget) (fl : FloatOps) (fuel : Nat) : RCtx PErr PSt :=
  textR env N target (jNext fl) (deJson env fl) .str PSt.strbuf fuel

/-- The RON reader. -/
def ronR (env : Env) (N : Names) (target : List Txt → Option RTarget) (fl : FloatOps) (fuel : Nat) : RCtx PErr PSt :=
  textR env N target (rNext fl) (deRon env fl) .ident PSt.identbuf fuel

/-! ## The generators -/

/-- `Self`. -/
def selfPath : List Txt := ["Self".toList]

/-- `Self::V`. -/
def selfVar (v : Txt) : List Txt := ["Self".toList, v]

/-- The text `Default::default()`. -/
def dfltText : Txt := "Default::default()".toList

/-- derive/src/serde_bin.rs:123-141. -/
def genDeBinInit (f : PField) : RInit :=
  match attrsProxy f.attributes with
  | some p => .via p
  | none => .call

/-- derive/src/serde_bin.rs:118-171 `derive_de_bin_struct`. -/
def genDeBinStruct (s : PStruct) : RProg :=
  .block { e := .lit selfPath (
      ((s.fields.filter fun f => !attrsSkip f.attributes).map fun f => (f.nm, genDeBinInit f)) ++
      ((s.fields.filter fun f => attrsSkip f.attributes).map fun f => (f.nm, .code dfltText))) }

/-- The first loop of derive/src/serde_bin.rs:177-197, from the field with number `n` on. -/
def genDeBinTupleFrom : Nat → List PField → List (Txt × RInit)
  | _, [] => []
  | n, f :: fs =>
    (if attrsSkip f.attributes then [] else [(showNat n, genDeBinInit f)]) ++ genDeBinTupleFrom (n + 1) fs

/-- derive/src/serde_bin.rs:173-226 `derive_de_bin_struct_unnamed`; a skipped field has no name, so
that `field.field_name.as_ref().unwrap()` panics. -/
def genDeBinTuple (s : PStruct) : Option RProg :=
  if s.fields.any fun f => attrsSkip f.attributes && f.name.isNone then none
  else some (.block { e := .lit selfPath (genDeBinTupleFrom 0 s.fields ++
    ((s.fields.filter fun f => attrsSkip f.attributes).map fun f => (f.nm, .code dfltText))) })

/-- One arm of derive/src/serde_bin.rs:311-366. -/
def genDeBinArm (index : Nat) (v : PField) : Option (Nat × RCons) :=
  match v.ty.cat, v.ty.wraps with
  | .none, none => some (index, .unit (selfVar v.nm))
  | .tuple ts, _ => some (index, .app (selfVar v.nm) (ts.map fun _ => .call))
  | .anonymous s, _ => some (index, .lit (selfVar v.nm) (s.fields.map fun f => (f.nm, .call)))
  | _, _ => none

/-- derive/src/serde_bin.rs:307-391 `derive_de_bin_enum`. -/
def genDeBinEnum (e : PEnum) : Option RProg := (genArmsFrom genDeBinArm 0 e.variants).map .matchId

/-- `format!("_{}", struct_fieldname)`. -/
def localVar (f : PField) : Txt := '_' :: f.nm

/-- derive/src/serde_json.rs:186-194 `proxified_t`. -/
def proxified (f : PField) : RConv :=
  match attrsProxy f.attributes with
  | some p => if f.ty.base = "Option".toList then .someFrom p else .from_ p
  | none => .id

/-- The element of `unwraps` for one field (derive/src/serde_json.rs:196-218). -/
def genDeJsonUnwrap (defaults : Bool) (f : PField) : RInit :=
  if attrsSkip f.attributes then .code ((jsonDefault f).getD dfltText)
  else if f.ty.base = "Option".toList || defaults || (jsonDefault f).isSome then
    match jsonDefault f with
    | some d => .mapOrElse (localVar f) d (proxified f)
    | none => .mapOrDefault (localVar f) (proxified f)
  else .mapOrErr (localVar f) (proxified f) f.nm

/-- derive/src/serde_json.rs:132-257 `derive_de_json_named`. -/
def genDeJsonNamed (path : List Txt) (defaults : Bool) (fields : List PField) : RBlock :=
  let read := fields.filter fun f => !attrsSkip f.attributes
  { pre := read.map (fun f => .letNone (localVar f) none) ++
      [.base (.op .curlyOpen),
       .whileKey (if fields.isEmpty then none else
           some (read.map fun f => ((attrsRename f.attributes).getD f.nm, [.op .nextColon, .setSome (localVar f)]),
             [.op .nextColon, .op .wholeField]))
         [.op .eatCommaCurly],
       .base (.op .curlyClose)]
    e := .lit path (fields.map fun f => (f.nm, genDeJsonUnwrap defaults f)) }

/-- derive/src/serde_json.rs:274-297 `derive_de_json_struct`. -/
def genDeJsonStruct (s : PStruct) : RProg :=
  .block (genDeJsonNamed [s.name.getD []]
    ((attrsDefault s.attributes).isSome || (attrsDefaultWith s.attributes).isSome) s.fields)

/-- derive/src/serde_json.rs:605-649 `derive_de_json_struct_unnamed`. -/
def genDeJsonTuple (s : PStruct) : RProg :=
  let init : RInit := if s.fields.length ≠ 1 then .callThen .eatCommaBlock else .call
  if s.fields.isEmpty then
    .block { pre := [.base (.op .curlyOpen)], e := .unit selfPath, post := [.curlyClose] }
  else if attrsTransparent s.attributes ∧ s.fields.length = 1 then
    .block { e := .app selfPath (s.fields.map fun _ => init) }
  else
    .block { pre := [.base (.op .blockOpen)], e := .app selfPath (s.fields.map fun _ => init), post := [.blockClose] }

/-- The arm of a variant (derive/src/serde_json.rs:445-500), and whether it is for a unit variant. -/
def genDeJsonArm (v : PField) : Option (Bool × Txt × RBlock) :=
  let k := (attrsRename v.attributes).getD v.nm
  match v.ty.cat, v.ty.wraps with
  | .none, none => some (true, k, { e := .unit (selfVar v.nm) })
  | .anonymous s, _ => some (false, k, genDeJsonNamed (selfVar v.nm) false s.fields)
  | .tuple ts, _ => some (false, k,
      { pre := [.base (.op .blockOpen)], e := .app (selfVar v.nm) (ts.map fun _ => .callThen .eatCommaBlock),
        post := [.blockClose] })
  | _, _ => none

/-- derive/src/serde_json.rs:440-552 `derive_de_json_enum`. -/
def genDeJsonEnum (e : PEnum) : Option RProg :=
  (genArmsFrom (fun _ => genDeJsonArm) 0 e.variants).map fun arms =>
    let rest := (arms.filter fun a => !a.1).map (·.2)
    let units := (arms.filter fun a => a.1).map (·.2)
    .matchTok
      ((if rest.isEmpty then [] else
          [(RTok.curlyOpen, { pre := [.curlyOpen, .string, .colon], arms := rest, post := [.curlyClose] })]) ++
       (if units.isEmpty then [] else [(RTok.str, { pre := [.string], arms := units })]))

/-- The element of `unwraps` for one field (derive/src/serde_ron.rs:154-193). -/
def genDeRonUnwrap (defaults : Bool) (f : PField) : RInit :=
  match ronDefault f with
  | some d => .orElse (localVar f) d
  | none =>
    if defaults || attrsSkip f.attributes || decide (f.ty.base = "Option".toList) then .orElse (localVar f) dfltText
    else .orErr (localVar f) f.nm

/-- derive/src/serde_ron.rs:142-259 `derive_de_ron_named`. -/
def genDeRonNamed (path : List Txt) (fields : List PField) (as : List Attr) : RBlock :=
  { pre := fields.map (fun f => .letNone (localVar f) (some f.ty.full)) ++
      [.base (.op .parenOpen),
       .whileKey (if fields.isEmpty then none else
           some ((fields.filter fun f => !attrsSkip f.attributes).map fun f =>
               ((attrsRename f.attributes).getD f.nm, [.op .nextColon, .setSome (localVar f)]),
             [.failKey]))
         [.op .eatCommaParen],
       .base (.op .parenClose)]
    e := .lit path (fields.map fun f => (f.nm, genDeRonUnwrap (attrsDefault as).isSome f)) }

/-- derive/src/serde_ron.rs:261-292 `derive_de_ron_struct`. -/
def genDeRonStruct (s : PStruct) : RProg := .block (genDeRonNamed [s.name.getD []] s.fields s.attributes)

/-- derive/src/serde_ron.rs:294-330 `derive_de_ron_struct_unnamed`. -/
def genDeRonTuple (s : PStruct) : RProg :=
  .block { pre := [.base (.op .parenOpen)], e := .app selfPath (s.fields.map fun _ => .callThen .eatCommaParen),
           post := [.parenClose] }

/-- The arm of a variant (derive/src/serde_ron.rs:445-496). -/
def genDeRonArm (en : Txt) (v : PField) : Option (Txt × RBlock) :=
  match v.ty.cat, v.ty.wraps with
  | .none, none => some (v.nm, { e := .unit (selfVar v.nm) })
  | .anonymous s, _ => some (v.nm, genDeRonNamed [en, v.nm] s.fields [])
  | .tuple ts, _ => some (v.nm,
      { pre := [.base (.op .parenOpen)], e := .app (selfVar v.nm) (ts.map fun _ => .callThen .eatCommaParen),
        post := [.parenClose] })
  | _, _ => none

/-- derive/src/serde_ron.rs:441-512 `derive_de_ron_enum`. -/
def genDeRonEnum (e : PEnum) : Option RProg :=
  (genArmsFrom (fun _ => genDeRonArm e.name) 0 e.variants).map fun arms => .sel { pre := [.ident], arms := arms }

/-- derive/src/lib.rs:61-67, 101-106, 143-148: the reader generated for an item without a container
proxy; `none` is a panic of the macro. -/
def genDe (fmt : Fmt) : Data → Option RProg
  | .struct s =>
    match fmt, s.named with
    | .bin, true => some (genDeBinStruct s)
    | .bin, false => genDeBinTuple s
    | .json, true => some (genDeJsonStruct s)
    | .json, false => some (genDeJsonTuple s)
    | .ron, true => some (genDeRonStruct s)
    | .ron, false => some (genDeRonTuple s)
  | .enum e =>
    match fmt with
    | .bin => genDeBinEnum e
    | .json => genDeJsonEnum e
    | .ron => genDeRonEnum e

/-- derive/src/serde_bin.rs:25-37, serde_json.rs:259-272, serde_ron.rs:28-40 `derive_de_bin_proxy`,
`derive_de_json_proxy`, `derive_de_ron_proxy`. -/
def genDeProxy (fmt : Fmt) (t p : Txt) : RProg :=
  match fmt with
  | .ron => .proxyOfChars p
  | _ => .proxy t p

/-- The name of an item (derive/src/parse.rs:162-171). -/
def Data.nm : Data → Txt
  | .struct s => s.name.getD []
  | .enum e => e.name

/-- derive/src/lib.rs:50-68, 91-108, 133-149 `derive_de_bin`, `derive_de_ron`, `derive_de_json`: the reader
generated for an item. -/
def deriveDe (fmt : Fmt) (d : Data) : Option RProg :=
  match itemProxy d with
  | some p => some (genDeProxy fmt d.nm p)
  | none => genDe fmt d

end NS.Derive
