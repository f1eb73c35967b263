import Verif.Model.Lex
import Verif.Model.Bin
/-!
# Model of `src/serde_json.rs` and `derive/src/serde_json.rs`
-/
namespace NS

/-- JSON counts columns (src/serde_json.rs:209). -/
def jcol : Nat → Nat := (· + 1)

/-- Result of skipping white space and comments. -/
inductive SkipRes where
  | at (c : Cur)
  | bad (c : Cur) (what : List Char)
  | oof

/-- The block comment loop (src/serde_json.rs:470-481), entered with the cursor on `txt` and the
given `last`; `false` is the error for an unterminated comment. -/
def jBlock : List Char → Char → Nat → Nat → Bool × Cur
  | [], _, l, c => (false, ⟨[], l, c⟩)
  | x :: t, last, l, c =>
    let n := Cur.next jcol ⟨x :: t, l, c⟩
    match t with
    | [] => (false, n)
    | y :: _ =>
      if y = '\x00' then (false, n)
      else if last = '*' ∧ y = '/' then (true, n.next jcol)
      else jBlock t y n.line n.col

/-- The part of `next_tok` before the token proper (src/serde_json.rs:453-488): white space, `//`
and `/* */` comments, each comment being followed by a recursive call.  Fuel: every round
consumes a character (`jSkip_fuel`). -/
def jSkip : Nat → Cur → SkipRes
  | 0, _ => .oof
  | n + 1, c0 =>
    let c := (c0.span jcol isWs).2
    if c.ch = '/' then
      let c1 := c.next jcol
      if c1.ch = '/' then jSkip n (c1.span jcol fun x => x ≠ '\n' && x ≠ '\x00').2
      else if c1.ch = '*' then
        match jBlock c1.txt c1.ch c1.line c1.col with
        | (true, c2) => jSkip n c2
        | (false, c2) => .bad c2 "MultiLineCommentClose".toList
      else .bad c1 "CommentOpen".toList
    else .at c

/-- Punctuation tokens (src/serde_json.rs:490-519). -/
def jPunct (c : Char) : Option Tok :=
  if c = ':' then some .colon
  else if c = ',' then some .comma
  else if c = '[' then some .blockOpen
  else if c = ']' then some .blockClose
  else if c = '{' then some .curlyOpen
  else if c = '}' then some .curlyClose
  else none

/-- The token proper (src/serde_json.rs:456-459, 489-648), with the cursor on its first
character. -/
def jTok (fl : FloatOps) : PM Unit := fun st =>
  let c := st.cur
  if c.ch = '\x00' then .ok () { st with tok := .eof }
  else
    match jPunct c.ch with
    | some t => .ok () { st with cur := c.next jcol, tok := t }
    | none =>
      if c.ch = '-' ∨ c.ch = '+' ∨ isDig c.ch then
        match lexNum jcol fl c with
        | (some t, c') => .ok () { st with cur := c', tok := t }
        | (none, c') => errParse "number".toList { st with cur := c' }
      else if isIdStart c.ch then
        let r := c.span jcol isIdStart
        let st' := { st with cur := r.2, identbuf := r.1 }
        if r.1 = ['t', 'r', 'u', 'e'] then .ok () { st' with tok := .bool true }
        else if r.1 = ['f', 'a', 'l', 's', 'e'] then .ok () { st' with tok := .bool false }
        else if r.1 = ['n', 'u', 'l', 'l'] then .ok () { st' with tok := .null }
        else failWith (fun _ => .unexpectedToken .bareIdent
          ("Got ##".toList ++ r.1 ++ "## needed true, false, null".toList)) { st' with tok := .bareIdent }
      else if c.ch = '"' then
        match lexStr jcol (c.txt.length + 1) (c.next jcol) [] with
        | .done c' buf => .ok () { st with cur := c', strbuf := buf, tok := .str }
        | .bad c' buf => errParse "string".toList { st with cur := c', strbuf := buf }
        | .oof => .oof
      else errToken "tokenizer" st

/-- `next_tok` (src/serde_json.rs:452-649). -/
def jNext (fl : FloatOps) : PM Unit := fun st =>
  match jSkip (st.cur.txt.length + 1) st.cur with
  | .at c => jTok fl { st with cur := c }
  | .bad c what => failWith (fun st => .unexpectedToken st.tok what) { st with cur := c }
  | .oof => .oof

/-- `while s.next_str().is_some() { body }` (derive/src/serde_json.rs:226; `next_str` at
src/serde_json.rs:355-363), RON `while s.next_ident().is_some()` (derive/src/serde_ron.rs:248;
`next_ident` at src/serde_ron.rs:322-328).  Fuel first. -/
def whileIs {α : Type} (t : Tok) (body : α → PM α) : Nat → α → PM α
  | 0, _ => M.oof
  | n + 1, acc => do
    let st ← M.get
    if st.tok = t then do
      let acc' ← body acc
      whileIs t body n acc'
    else pure acc

/-- The bracket counting loop of `whole_field` (src/serde_json.rs:297-311).  The counter is an
`i32`; modelled as unbounded (an overflow needs more than 2^31 nested brackets). -/
def wholeLoop (nx : PM Unit) : Nat → Int → PM Unit
  | 0, _ => M.oof
  | n + 1, open_ => do
    let st ← M.get
    let a := if st.tok = .blockOpen ∨ st.tok = .curlyOpen then open_ + 1 else open_
    let b := if st.tok = .blockClose ∨ st.tok = .curlyClose then a - 1 else a
    nx
    if b = 0 then pure () else wholeLoop nx n b

/-- `whole_field` (src/serde_json.rs:283-316). -/
def wholeField (nx : PM Unit) (n : Nat) : PM Unit := do
  let st ← M.get
  match st.tok with
  | .f64 _ | .i64 _ | .str | .u64 _ | .bool _ | .null => nx
  | .blockOpen | .curlyOpen => wholeLoop nx n 0
  | _ => M.panic      -- unimplemented!

/-- The key of a field or the name of a variant in the text: `rename` or its own name
(derive/src/serde_json.rs:52, 178, 306, 448). -/
def Field.key (f : Field) : List Char := f.rename.getD f.name
/-- See `Field.key`. -/
def Variant.key (v : Variant) : List Char := v.rename.getD v.name

/-- The match arm for a key: the first field that is not skipped and has that key
(derive/src/serde_json.rs:211, 230-238; derive/src/serde_ron.rs:183-184, 212-226). -/
def findField (fs : List Field) (key : List Char) : Option Nat :=
  fs.findIdx? fun f => !f.skip && f.key == key

/-- Reading one field's value; an `Option` field with a `proxy` attribute reads the proxy type and
wraps it (derive/src/serde_json.rs:182-190). -/
def deField (de : Ty → PM Val) (f : Field) : PM Val :=
  match f.optProxy, f.ty with
  | true, .option t => do
    let v ← de t
    pure (.some v)
  | _, t => de t

/-- The value of the member `key` (derive/src/serde_json.rs:230-244): known keys are read, others
skipped; a struct without fields has no `match` at all. -/
def jMemberValue (nx : PM Unit) (n : Nat) (de : Ty → PM Val) (fs : List Field)
    (acc : List (Option Val)) (key : List Char) : PM (List (Option Val)) :=
  if fs.isEmpty then pure acc
  else
    match findField fs key with
    | some i => do
      nextColon nx
      let v ← deField de (fs.getD i { name := [], ty := .unit })
      pure (acc.set i (some v))
    | none => do
      nextColon nx
      wholeField nx n
      pure acc

/-- One member (derive/src/serde_json.rs:228-247). -/
def jMember (nx : PM Unit) (n : Nat) (de : Ty → PM Val) (fs : List Field)
    (acc : List (Option Val)) : PM (List (Option Val)) := do
  let st ← M.get
  let acc' ← jMemberValue nx n de fs acc st.strbuf
  eatCommaCurly nx
  pure acc'

/-- The field initialisers (derive/src/serde_json.rs:192-215, 250-254; derive/src/serde_ron.rs:
162-192, 240-242): what was read, else the field's default, else `Default::default()` for an
`Option` field, a container default or a skipped field, else `err_nf`. -/
def unwrapFields (cd : Bool) : List Field → List (Option Val) → PM (List Val)
  | f :: fs, o :: os => do
    let a ←
      match (if f.skip then none else o) with
      | some v => pure v
      | none =>
        if f.skip || f.optSyn || cd || f.dfltAttr.isSome then pure (f.dfltAttr.getD f.tyDefault)
        else errNf f.name
    let as ← unwrapFields cd fs os
    pure (a :: as)
  | _, _ => pure []

/-- `derive_de_json_named` (derive/src/serde_json.rs:132-257). -/
def deJsonNamed (nx : PM Unit) (n : Nat) (de : Ty → PM Val) (cd : Bool) (fs : List Field) :
    PM (List Val) := do
  curlyOpen nx
  let acc ← whileIs .str (jMember nx n de fs) n (fs.map fun _ => none)
  curlyClose nx
  unwrapFields cd fs acc

/-- Components of a tuple: each followed by a comma or the closing bracket. -/
def deTysEat (de : Ty → PM Val) (eat : PM Unit) : List Ty → PM (List Val)
  | [] => pure []
  | t :: ts => do
    let a ← thenEat (de t) eat
    let as ← deTysEat de eat ts
    pure (a :: as)

/-- Components of a built-in tuple (src/serde_json.rs:1117-1203, src/serde_ron.rs:1121-1207). -/
def deTysComma (de : Ty → PM Val) (eat : PM Unit) : List Ty → PM (List Val)
  | [] => pure []
  | t :: ts => do
    let a ← commaAfter (de t) eat
    let as ← deTysComma de eat ts
    pure (a :: as)

/-- Built-in tuples. -/
def deTuple (open_ close eat : PM Unit) (de : Ty → PM Val) (ts : List Ty) : PM Val := do
  open_
  let vs ← deTysComma de eat ts
  close
  pure (.seq vs)

/-- `derive_de_json_struct_unnamed` (derive/src/serde_json.rs:605-649). -/
def deJsonTupleStruct (nx : PM Unit) (de : Ty → PM Val) (ts : List Ty) (transparent : Bool) :
    PM Val :=
  match ts, transparent with
  | [], _ => do
    curlyOpen nx
    curlyClose nx
    pure (.struct [])
  | [t], true => do
    let v ← de t
    pure (.struct [v])
  | [t], false => do
    blockOpen nx
    let v ← de t
    blockClose nx
    pure (.struct [v])
  | ts, _ => do
    blockOpen nx
    let vs ← deTysEat de (eatCommaBlock nx) ts
    blockClose nx
    pure (.struct vs)

/-- A unit variant? -/
def Variant.isUnit (v : Variant) : Bool :=
  match v.shape with
  | .unit => true
  | _ => false

/-- The arm for a variant name among unit (`u = true`) or non-unit variants
(derive/src/serde_json.rs:445-500, 517-520, 533-536). -/
def findVariant (vars : List Variant) (u : Bool) (name : List Char) : Option Nat :=
  vars.findIdx? fun v => v.isUnit == u && v.key == name

/-- Contents of a non-unit variant (derive/src/serde_json.rs:464-495). -/
def deJsonShape (nx : PM Unit) (n : Nat) (de : Ty → PM Val) : Shape → PM (List Val)
  | .unit => pure []
  | .tuple ts => do
    blockOpen nx
    let vs ← deTysEat de (eatCommaBlock nx) ts
    blockClose nx
    pure vs
  | .named fs => deJsonNamed nx n de false fs

/-- `derive_de_json_enum` (derive/src/serde_json.rs:440-552). -/
def deJsonEnum (nx : PM Unit) (n : Nat) (de : Ty → PM Val) (vars : List Variant) : PM Val := do
  let st ← M.get
  if st.tok = .curlyOpen ∧ vars.any (fun v => !v.isUnit) then do
    curlyOpen nx
    expectTok nx .str "String"
    colon nx
    let st ← M.get
    match findVariant vars false st.strbuf with
    | some j => do
      let vs ← deJsonShape nx n de (vars.getD j { name := [], shape := .unit }).shape
      curlyClose nx
      pure (.variant j vs)
    | none => errEnum st.strbuf
  else if st.tok = .str ∧ vars.any (fun v => v.isUnit) then do
    expectTok nx .str "String"
    let st ← M.get
    match findVariant vars true st.strbuf with
    | some j => pure (.variant j [])
    | none => errEnum st.strbuf
  else errToken "String or {"

/-- `DeJson::de_json` for every type. -/
def deJson (env : Env) (fl : FloatOps) : Nat → Ty → PM Val
  | 0, _ => M.oof
  | n + 1, t =>
    match t with
    | .unit => do                                                  -- 807-816
      expectTok (jNext fl) .null "null"
      pure .unit
    | .bool => do                                                  -- 828-834, 436-441
      let st ← M.get
      match st.tok with
      | .bool b => do
        jNext fl
        pure (.bool b)
      | _ => errToken "boolean"
    | .int k => deInt (jNext fl) k
    | .f32 => deF32 (jNext fl) fl
    | .f64 => deF64 (jNext fl) fl
    | .str => do
      let s ← deStr (jNext fl)
      pure (.str s)
    | .dur => deDur (jNext fl) n
    | .time => do                                                  -- 1375-1383 with 788-799
      let st ← M.get
      if st.tok = .null then do
        jNext fl
        epochAt .none
      else do
        let v ← deDur (jNext fl) n
        epochAt v
    | .option t => do                                              -- 788-799
      let st ← M.get
      if st.tok = .null then do
        jNext fl
        pure .none
      else do
        let v ← deJson env fl n t
        pure (.some v)
    | .vec t => deSeq (jNext fl) n (deJson env fl n t) (fun acc v => acc ++ [v])
    | .linked t => deSeq (jNext fl) n (deJson env fl n t) (fun acc v => acc ++ [v])
    | .hset t => deSeq (jNext fl) n (deJson env fl n t) (collInsert env .hset)
    | .bset t => deSeq (jNext fl) n (deJson env fl n t) (collInsert env .bset)
    | .array t len => do                                           -- 1051-1092
      blockOpen (jNext fl)
      let vs ← repeatM (thenEat (deJson env fl n t) (eatCommaBlock (jNext fl))) len
      blockClose (jNext fl)
      pure (.seq vs)
    | .pair a b =>                                                 -- 1117-1128
      deTuple (blockOpen (jNext fl)) (blockClose (jNext fl)) (eatCommaBlock (jNext fl))
        (deJson env fl n) [a, b]
    | .triple a b c =>                                             -- 1147-1163
      deTuple (blockOpen (jNext fl)) (blockClose (jNext fl)) (eatCommaBlock (jNext fl))
        (deJson env fl n) [a, b, c]
    | .quad a b c d =>                                             -- 1185-1203
      deTuple (blockOpen (jNext fl)) (blockClose (jNext fl)) (eatCommaBlock (jNext fl))
        (deJson env fl n) [a, b, c, d]
    | .hmap k v =>
      deMap (jNext fl) n (deJson env fl n k) (deJson env fl n v) (collInsert env .hmap)
    | .bmap k v =>
      deMap (jNext fl) n (deJson env fl n k) (deJson env fl n v) (collInsert env .bmap)
    | .box t => do                                                 -- 1301-1308
      let v ← deJson env fl n t
      pure (.box v)
    | .named i =>
      match env.defs[i]? with
      | .some (.struct fs cd _) => do                              -- derive: 274-297
        let vs ← deJsonNamed (jNext fl) n (deJson env fl n) cd fs
        pure (.struct vs)
      | .some (.tuple ts tr) => deJsonTupleStruct (jNext fl) (deJson env fl n) ts tr
      | .some (.enum vars) => deJsonEnum (jNext fl) n (deJson env fl n) vars
      | .none => M.oof   -- no such type: not a program
    | .proxied i =>                                                -- derive: 259-272, 182-190
      match env.proxies[i]? with
      | .some px => do
        let p ← deJson env fl n px.ty
        let o := px.back p
        pure (.prox o (px.into o))
      | .none => M.oof   -- no such type: not a program

/-- The state after `DeJsonState::default()` and `state.next(&mut chars)`
(src/serde_json.rs:83-85). -/
def initSt (k : Nat → Nat) (input : List Char) : PSt :=
  { cur := Cur.next k ⟨'\x00' :: input, 0, 0⟩, tok := .bof, strbuf := [], identbuf := [] }

/-- `DeJson::deserialize_json` (src/serde_json.rs:82-88). -/
def deserializeJson (env : Env) (fl : FloatOps) (n : Nat) (t : Ty) (input : List Char) :
    Out PErr PSt Val :=
  (do jNext fl; deJson env fl n t : PM Val) (initSt jcol input)

/-! ## Writing -/

/-- `{:04x}`. -/
def hex4 (n : Nat) : List Char :=
  [(n / 4096 % 16).digitChar, (n / 256 % 16).digitChar, (n / 16 % 16).digitChar,
   (n % 16).digitChar]

/-- One character of a string (src/serde_json.rs:842-855). -/
def jsonEsc (c : Char) : List Char :=
  if c = '\x08' then ['\\', 'b']
  else if c = '\x0c' then ['\\', 'f']
  else if c = '\n' then ['\\', 'n']
  else if c = '\r' then ['\\', 'r']
  else if c = '\t' then ['\\', 't']
  else if c.toNat < 32 ∨ c.toNat = 127 then ['\\', 'u'] ++ hex4 c.toNat
  else if c = '\\' then ['\\', '\\']
  else if c = '"' then ['\\', '"']
  else [c]

/-- `impl_ser_json_string!` (src/serde_json.rs:836-861). -/
def jsonStr (s : List Char) : List Char := '"' :: (s.flatMap jsonEsc ++ ['"'])

/-- Texts with a separator between them: the loops that push `sep` after every item but the last
(src/serde_json.rs:880-889, 1031-1036) or before every item but the first
(derive/src/serde_json.rs:95-98). -/
def joinSep (sep : List Char) : List (List Char) → List Char
  | [] => []
  | [x] => x
  | x :: y :: r => x ++ sep ++ joinSep sep (y :: r)

/-- `s.label(name)` (src/serde_json.rs:35-39): the name is written raw. -/
def jsonLabel (name : List Char) : List Char := '"' :: (name ++ ['"'])
/-- `s.field(d, name)` (src/serde_json.rs:27-33) followed by the value. -/
def jsonMember (name text : List Char) : List Char := jsonLabel name ++ ':' :: text

/-- `impl SerJson for Duration` (src/serde_json.rs:1310-1320), the same text in RON
(src/serde_ron.rs:1307-1317). -/
def durText (secs nanos : Nat) : List Char :=
  ['{', '"', 's', 'e', 'c', 's', '"', ':'] ++ showNat secs ++
    (if nanos > 0 then [',', '"', 'n', 'a', 'n', 'o', 's', '"', ':'] ++ showNat nanos else []) ++ ['}']

/-- Is this value `None`? -/
def Val.isNone : Val → Bool
  | .none => true
  | _ => false

mutual
/-- The text `SerJson::ser_json` appends to its output, in a build without overflow checks (with
them, see `serializeJson`).  Ill-typed combinations, which Rust's type checker excludes, give
`[]`. -/
def serJson (env : Env) (fl : FloatOps) : Ty → Val → List Char
  | .unit, .unit => ['n', 'u', 'l', 'l']                           -- 801-805
  | .bool, .bool b => if b then ['t', 'r', 'u', 'e'] else ['f', 'a', 'l', 's', 'e']  -- 818-826
  | .int _, .int i => showInt i                                    -- 707-742
  | .f32, .f32 x => fl.show32 x                                    -- 744-750
  | .f64, .f64 x => fl.show64 x
  | .str, .str s => jsonStr s
  | .dur, .dur s n => durText s n
  | .time, .time s n =>                                            -- 1366-1373
    if 0 ≤ s then durText s.toNat n else ['n', 'u', 'l', 'l']
  | .option _, .none => ['n', 'u', 'l', 'l']                       -- 775-786
  | .option t, .some v => serJson env fl t v
  | .vec t, .seq vs => '[' :: (joinSep [','] (serJsonAll env fl t vs) ++ [']'])     -- 874-892
  | .hset t, .seq vs => '[' :: (joinSep [','] (serJsonAll env fl t vs) ++ [']'])    -- 911-930
  | .linked t, .seq vs => '[' :: (joinSep [','] (serJsonAll env fl t vs) ++ [']'])  -- 950-968
  | .bset t, .seq vs => '[' :: (joinSep [','] (serJsonAll env fl t vs) ++ [']'])    -- 987-1005
  | .array t _, .seq vs => '[' :: (joinSep [','] (serJsonAll env fl t vs) ++ [']']) -- 1024-1049
  | .pair a b, .seq vs => '[' :: (joinSep [','] (serJsonTys env fl [a, b] vs) ++ [']'])  -- 1103-1115
  | .triple a b c, .seq vs =>                                      -- 1130-1145
    '[' :: (joinSep [','] (serJsonTys env fl [a, b, c] vs) ++ [']'])
  | .quad a b c d, .seq vs =>                                      -- 1165-1183
    '[' :: (joinSep [','] (serJsonTys env fl [a, b, c, d] vs) ++ [']'])
  | .hmap k t, .seq vs => '{' :: (joinSep [','] (serJsonEntries env fl k t vs) ++ ['}'])  -- 1205-1226
  | .bmap k t, .seq vs => '{' :: (joinSep [','] (serJsonEntries env fl k t vs) ++ ['}'])  -- 1250-1270
  | .box t, .box v => serJson env fl t v                           -- 1292-1299
  | .named i, .struct vs =>
    match env.defs[i]? with
    | .some (.struct fs _ nul) =>                                  -- derive: 42-130
      '{' :: (joinSep [','] (serJsonFields env fl nul fs vs) ++ ['}'])
    | .some (.tuple ts tr) =>                                      -- derive: 554-603
      if ts.isEmpty then ['{', '}']
      else if tr ∧ ts.length = 1 then joinSep [] (serJsonTys env fl ts vs)
      else '[' :: (joinSep [',', ' '] (serJsonTys env fl ts vs) ++ [']'])
    | _ => []
  | .named i, .variant j vs =>                                     -- derive: 299-438
    match env.defs[i]? with
    | .some (.enum vars) =>
      match vars[j]? with
      | .some ⟨nm, rn, .unit⟩ => jsonLabel (rn.getD nm)
      | .some ⟨nm, rn, .tuple ts⟩ =>
        '{' :: (jsonMember (rn.getD nm) ('[' :: (joinSep [','] (serJsonTys env fl ts vs) ++ [']'])) ++ ['}'])
      | .some ⟨nm, rn, .named fs⟩ =>
        '{' :: (jsonMember (rn.getD nm) ('{' :: (serJsonVarFields env fl fs vs ++ ['}'])) ++ ['}'])
      | .none => []
    | _ => []
  | .proxied i, .prox _ p =>                                       -- derive: 14-26, 28-40
    match env.proxies[i]? with
    | .some px => serJson env fl px.ty p
    | .none => []
  | _, _ => []
/-- Texts of the items in iteration order. -/
def serJsonAll (env : Env) (fl : FloatOps) (t : Ty) : List Val → List (List Char)
  | [] => []
  | v :: vs => serJson env fl t v :: serJsonAll env fl t vs
/-- Texts `key:value` of the entries in iteration order. -/
def serJsonEntries (env : Env) (fl : FloatOps) (k t : Ty) : List Val → List (List Char)
  | [] => []
  | .entry a b :: vs =>
    (serJson env fl k a ++ ':' :: serJson env fl t b) :: serJsonEntries env fl k t vs
  | _ :: vs => serJsonEntries env fl k t vs
/-- Texts of tuple components. -/
def serJsonTys (env : Env) (fl : FloatOps) : List Ty → List Val → List (List Char)
  | t :: ts, v :: vs => serJson env fl t v :: serJsonTys env fl ts vs
  | _, _ => []
/-- Members of a derived struct (derive/src/serde_json.rs:49-106): a skipped field writes nothing,
a `None` in an `Option` field nothing or `null`. -/
def serJsonFields (env : Env) (fl : FloatOps) (nul : Bool) : List Field → List Val → List (List Char)
  | f :: fs, v :: vs =>
    if f.skip then serJsonFields env fl nul fs vs
    else if f.optSyn ∧ v.isNone then
      if (f.noneAsNull || nul) ∧ ¬ f.optProxy then
        jsonMember f.key ['n', 'u', 'l', 'l'] :: serJsonFields env fl nul fs vs
      else serJsonFields env fl nul fs vs
    else jsonMember f.key (serJson env fl f.ty v) :: serJsonFields env fl nul fs vs
  | _, _ => []
/-- Members of a struct variant (derive/src/serde_json.rs:327-368): own names, `skip` and `rename`
ignored, a comma after every written member that is not the last of the declaration. -/
def serJsonVarFields (env : Env) (fl : FloatOps) : List Field → List Val → List Char
  | f :: fs, v :: vs =>
    (if f.optSyn ∧ v.isNone then []
     else jsonMember f.name (serJson env fl f.ty v) ++ (if fs.isEmpty then [] else [','])) ++
    serJsonVarFields env fl fs vs
  | _, _ => []
end

mutual
/-- Does a text serializer evaluate `self.len() - 1` of an empty slice or array
(src/serde_json.rs:1030, src/serde_ron.rs:1020)?  Skipped fields of structs are not visited, those
of struct variants are. -/
def visitsEmptyArray (env : Env) : Ty → Val → Bool
  | .option t, .some v => visitsEmptyArray env t v
  | .vec t, .seq vs => visitsEmptyAll env t vs
  | .hset t, .seq vs => visitsEmptyAll env t vs
  | .linked t, .seq vs => visitsEmptyAll env t vs
  | .bset t, .seq vs => visitsEmptyAll env t vs
  | .array t _, .seq vs => vs.isEmpty || visitsEmptyAll env t vs
  | .pair a b, .seq vs => visitsEmptyTys env [a, b] vs
  | .triple a b c, .seq vs => visitsEmptyTys env [a, b, c] vs
  | .quad a b c d, .seq vs => visitsEmptyTys env [a, b, c, d] vs
  | .hmap k t, .seq vs => visitsEmptyEntries env k t vs
  | .bmap k t, .seq vs => visitsEmptyEntries env k t vs
  | .box t, .box v => visitsEmptyArray env t v
  | .named i, .struct vs =>
    match env.defs[i]? with
    | .some (.struct fs _ _) => visitsEmptyFields env true fs vs
    | .some (.tuple ts _) => visitsEmptyTys env ts vs
    | _ => false
  | .named i, .variant j vs =>
    match env.defs[i]? with
    | .some (.enum vars) =>
      match vars[j]? with
      | .some ⟨_, _, .tuple ts⟩ => visitsEmptyTys env ts vs
      | .some ⟨_, _, .named fs⟩ => visitsEmptyFields env false fs vs
      | _ => false
    | _ => false
  | .proxied i, .prox _ p =>
    match env.proxies[i]? with
    | .some px => visitsEmptyArray env px.ty p
    | .none => false
  | _, _ => false
/-- Any item. -/
def visitsEmptyAll (env : Env) (t : Ty) : List Val → Bool
  | [] => false
  | v :: vs => visitsEmptyArray env t v || visitsEmptyAll env t vs
/-- Any key or value. -/
def visitsEmptyEntries (env : Env) (k t : Ty) : List Val → Bool
  | [] => false
  | .entry a b :: vs =>
    visitsEmptyArray env k a || visitsEmptyArray env t b || visitsEmptyEntries env k t vs
  | _ :: vs => visitsEmptyEntries env k t vs
/-- Any component. -/
def visitsEmptyTys (env : Env) : List Ty → List Val → Bool
  | t :: ts, v :: vs => visitsEmptyArray env t v || visitsEmptyTys env ts vs
  | _, _ => false
/-- Any visited field. -/
def visitsEmptyFields (env : Env) (useSkip : Bool) : List Field → List Val → Bool
  | f :: fs, v :: vs =>
    (if useSkip && f.skip then false else visitsEmptyArray env f.ty v) ||
    visitsEmptyFields env useSkip fs vs
  | _, _ => false
end

/-- `SerJson::serialize_json` (src/serde_json.rs:60-64).  `none` is a panic: with overflow checks
(`chk`) `self.len() - 1` panics on an empty slice; without, it wraps and the loop body never
runs. -/
def serializeJson (env : Env) (fl : FloatOps) (chk : Bool) (t : Ty) (v : Val) :
    Option (List Char) :=
  if chk ∧ visitsEmptyArray env t v then none else some (serJson env fl t v)

end NS
