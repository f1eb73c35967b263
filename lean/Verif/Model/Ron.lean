import Verif.Model.Json
/-!
# Model of `src/serde_ron.rs` and `derive/src/serde_ron.rs`
-/
namespace NS

/-- RON resets the column on every character (src/serde_ron.rs:196-201). -/
def rcol : Nat → Nat := fun _ => 0

/-- The block comment loop (src/serde_ron.rs:499-507); running into the end of the input simply
ends it. -/
def rBlock : List Char → Bool → Nat → Nat → Cur
  | [], _, l, c => ⟨[], l, c⟩
  | x :: t, lastStar, l, c =>
    let n := Cur.next rcol ⟨x :: t, l, c⟩
    if x = '\x00' then ⟨x :: t, l, c⟩
    else if x = '/' ∧ lastStar then n
    else rBlock t (x == '*') n.line n.col

/-- The rounds of the `loop` of `next_tok` that do not return (src/serde_ron.rs:437-440, 486-511,
594-606): white space, comments, and character literals (whose token is overwritten by the next
round).  Fuel: every round consumes a character. -/
def rSkip : Nat → PM Unit
  | 0 => M.oof
  | n + 1 => fun st =>
    let c := (st.cur.span rcol isWs).2
    if c.ch = '/' then
      let c1 := c.next rcol
      if c1.ch = '/' then
        let c2 := (c1.span rcol fun x => x ≠ '\n' && x ≠ '\x00').2
        rSkip n { st with cur := if c2.ch = '\n' then c2.next rcol else c2 }
      else if c1.ch = '*' then
        rSkip n { st with cur := rBlock c1.txt false c1.line c1.col }
      else errParse "comment".toList { st with cur := c1 }
    else if c.ch = '\'' then
      let c1 := c.next rcol
      let c2 := if c1.ch = '\\' then c1.next rcol else c1
      let c3 := c2.next rcol
      if c3.ch ≠ '\'' then errToken "char" { st with cur := c3 }
      else rSkip n { st with cur := c3.next rcol, tok := .char c2.ch }
    else .ok () { st with cur := c }

/-- Punctuation tokens (src/serde_ron.rs:446-485). -/
def rPunct (c : Char) : Option Tok :=
  if c = ':' then some .colon
  else if c = ',' then some .comma
  else if c = '[' then some .blockOpen
  else if c = ']' then some .blockClose
  else if c = '(' then some .parenOpen
  else if c = ')' then some .parenClose
  else if c = '{' then some .curlyOpen
  else if c = '}' then some .curlyClose
  else none

/-- Identifier characters after the first (src/serde_ron.rs:575-578). -/
def isIdChar (c : Char) : Bool := isIdStart c || isDig c

/-- The token proper (src/serde_ron.rs:441-485, 512-593, 607-648). -/
def rTok (fl : FloatOps) : PM Unit := fun st =>
  let c := st.cur
  if c.ch = '\x00' then .ok () { st with tok := .eof }
  else
    match rPunct c.ch with
    | some t => .ok () { st with cur := c.next rcol, tok := t }
    | none =>
      if c.ch = '.' ∨ c.ch = '-' ∨ c.ch = '+' ∨ isDig c.ch then
        match lexNum rcol fl c with
        | (some t, c') => .ok () { st with cur := c', tok := t }
        | (none, c') => errParse "number".toList { st with cur := c' }
      else if isIdStart c.ch then
        let r := c.span rcol isIdChar
        let st' := { st with cur := r.2, identbuf := r.1 }
        if r.1 = ['t', 'r', 'u', 'e'] then .ok () { st' with tok := .bool true }
        else if r.1 = ['f', 'a', 'l', 's', 'e'] then .ok () { st' with tok := .bool false }
        else .ok () { st' with tok := .ident }
      else if c.ch = '"' then
        match lexStr rcol (c.txt.length + 1) (c.next rcol) [] with
        | .done c' buf => .ok () { st with cur := c', strbuf := buf, tok := .str }
        | .bad c' buf => errParse "string".toList { st with cur := c', strbuf := buf }
        | .oof => .oof
      else errToken "tokenizer" st

/-- `next_tok` (src/serde_ron.rs:436-651). -/
def rNext (fl : FloatOps) : PM Unit := fun st =>
  match rSkip (st.cur.txt.length + 1) st with
  | .ok _ st' => rTok fl st'
  | r => r

/-- The text `None`. -/
def noneText : List Char := ['N', 'o', 'n', 'e']

/-- The value of the field `key` (derive/src/serde_ron.rs:210-236); a struct without fields has no
`match`. -/
def rMemberValue (nx : PM Unit) (de : Ty → PM Val) (fs : List Field) (acc : List (Option Val))
    (key : List Char) : PM (List (Option Val)) :=
  if fs.isEmpty then pure acc
  else
    match findField fs key with
    | some i => do
      nextColon nx
      let v ← de (fs.getD i { name := [], ty := .unit }).ty
      pure (acc.set i (some v))
    | none => errExp key

/-- One field (derive/src/serde_ron.rs:248-251). -/
def rMember (nx : PM Unit) (de : Ty → PM Val) (fs : List Field) (acc : List (Option Val)) :
    PM (List (Option Val)) := do
  let st ← M.get
  let acc' ← rMemberValue nx de fs acc st.identbuf
  eatCommaParen nx
  pure acc'

/-- `derive_de_ron_named` (derive/src/serde_ron.rs:142-259). -/
def deRonNamed (nx : PM Unit) (n : Nat) (de : Ty → PM Val) (cd : Bool) (fs : List Field) :
    PM (List Val) := do
  parenOpen nx
  let acc ← whileIs .ident (rMember nx de fs) n (fs.map fun _ => none)
  parenClose nx
  unwrapFields cd fs acc

/-- Tuple structs and tuple variants (derive/src/serde_ron.rs:294-330, 465-494). -/
def deRonTys (nx : PM Unit) (de : Ty → PM Val) (ts : List Ty) : PM (List Val) := do
  parenOpen nx
  let vs ← deTysEat de (eatCommaParen nx) ts
  parenClose nx
  pure vs

/-- Contents of a variant (derive/src/serde_ron.rs:453-494). -/
def deRonShape (nx : PM Unit) (n : Nat) (de : Ty → PM Val) : Shape → PM (List Val)
  | .unit => pure []
  | .tuple ts => deRonTys nx de ts
  | .named fs => deRonNamed nx n de false fs

/-- `derive_de_ron_enum` (derive/src/serde_ron.rs:441-512); `rename` on variants is not looked at. -/
def deRonEnum (nx : PM Unit) (n : Nat) (de : Ty → PM Val) (vars : List Variant) : PM Val := do
  expectTok nx .ident "Identifier"
  let st ← M.get
  match vars.findIdx? (fun v => v.name == st.identbuf) with
  | some j => do
    let vs ← deRonShape nx n de (vars.getD j { name := [], shape := .unit }).shape
    pure (.variant j vs)
  | none => errEnum st.identbuf

/-- Is the current token the identifier `None` (src/serde_ron.rs:796-797)? -/
def atNone (st : PSt) : Bool := st.tok == .ident && st.identbuf == noneText

/-- `DeRon::de_ron` for every type. -/
def deRon (env : Env) (fl : FloatOps) : Nat → Ty → PM Val
  | 0, _ => M.oof
  | n + 1, t =>
    match t with
    | .unit => do                                                  -- 1099-1105
      parenOpen (rNext fl)
      parenClose (rNext fl)
      pure .unit
    | .bool => do                                                  -- 816-822, 417-425
      let st ← M.get
      match st.tok with
      | .bool b => do
        rNext fl
        pure (.bool b)
      | .u64 v => do
        rNext fl
        pure (.bool (v != 0))
      | _ => errToken "boolean"
    | .int k => deInt (rNext fl) k
    | .f32 => deF32 (rNext fl) fl
    | .f64 => deF64 (rNext fl) fl
    | .str => do
      let s ← deStr (rNext fl)
      pure (.str s)
    | .dur => deDur (rNext fl) n
    | .time => do                                                  -- 1372-1380 with 791-804
      let st ← M.get
      if atNone st then do
        rNext fl
        epochAt .none
      else do
        let v ← deDur (rNext fl) n
        epochAt v
    | .option t => do                                              -- 791-804
      let st ← M.get
      if atNone st then do
        rNext fl
        pure .none
      else do
        let v ← deRon env fl n t
        pure (.some v)
    | .vec t => deSeq (rNext fl) n (deRon env fl n t) (fun acc v => acc ++ [v])
    | .linked t => deSeq (rNext fl) n (deRon env fl n t) (fun acc v => acc ++ [v])
    | .hset t => deSeq (rNext fl) n (deRon env fl n t) (collInsert env .hset)
    | .bset t => deSeq (rNext fl) n (deRon env fl n t) (collInsert env .bset)
    | .array t len => do                                           -- 1041-1082
      parenOpen (rNext fl)
      let vs ← repeatM (thenEat (deRon env fl n t) (eatCommaParen (rNext fl))) len
      parenClose (rNext fl)
      pure (.seq vs)
    | .pair a b =>                                                 -- 1121-1132
      deTuple (parenOpen (rNext fl)) (parenClose (rNext fl)) (eatCommaParen (rNext fl))
        (deRon env fl n) [a, b]
    | .triple a b c =>                                             -- 1151-1167
      deTuple (parenOpen (rNext fl)) (parenClose (rNext fl)) (eatCommaParen (rNext fl))
        (deRon env fl n) [a, b, c]
    | .quad a b c d =>                                             -- 1189-1207
      deTuple (parenOpen (rNext fl)) (parenClose (rNext fl)) (eatCommaParen (rNext fl))
        (deRon env fl n) [a, b, c, d]
    | .hmap k v =>
      deMap (rNext fl) n (deRon env fl n k) (deRon env fl n v) (collInsert env .hmap)
    | .bmap k v =>
      deMap (rNext fl) n (deRon env fl n k) (deRon env fl n v) (collInsert env .bmap)
    | .box t => do                                                 -- 1298-1305
      let v ← deRon env fl n t
      pure (.box v)
    | .named i =>
      match env.defs[i]? with
      | .some (.struct fs cd _) => do                              -- derive: 261-292
        let vs ← deRonNamed (rNext fl) n (deRon env fl n) cd fs
        pure (.struct vs)
      | .some (.tuple ts _) => do
        let vs ← deRonTys (rNext fl) (deRon env fl n) ts
        pure (.struct vs)
      | .some (.enum vars) => deRonEnum (rNext fl) n (deRon env fl n) vars
      | .none => M.oof   -- no such type: not a program
    | .proxied _ => M.oof
      -- the generated impl (derive: 28-40) calls `deserialize_ron(i)` with a `&mut Chars` and does
      -- not compile, so no program reads a proxied type from RON

/-- `DeRon::deserialize_ron` (src/serde_ron.rs:73-79). -/
def deserializeRon (env : Env) (fl : FloatOps) (n : Nat) (t : Ty) (input : List Char) :
    Out PErr PSt Val :=
  (do rNext fl; deRon env fl n t : PM Val) (initSt rcol input)

/-! ## Writing -/

/-- One character of a string (src/serde_ron.rs:828-854). -/
def ronEsc (c : Char) : List Char :=
  if c = '\n' then ['\\', 'n']
  else if c = '\r' then ['\\', 'r']
  else if c = '\t' then ['\\', 't']
  else if c = '\x00' then ['\\', '0']
  else if c = '\\' then ['\\', '\\']
  else if c = '"' then ['\\', '"']
  else [c]

/-- `impl SerRon for String` (src/serde_ron.rs:824-858). -/
def ronStr (s : List Char) : List Char := '"' :: (s.flatMap ronEsc ++ ['"'])

/-- Every text followed by a comma: loops that end each round with `s.conl()`
(src/serde_ron.rs:874-878, 1217-1223). -/
def commaEach (xs : List (List Char)) : List Char := xs.flatMap fun x => x ++ [',']

/-- `s.field(d, name)` (src/serde_ron.rs:22-26) followed by the value. -/
def ronMember (name text : List Char) : List Char := name ++ ':' :: text

mutual
/-- The text `SerRon::ser_ron` appends to its output, in a build without overflow checks.
Ill-typed combinations give `[]`. -/
def serRon (env : Env) (fl : FloatOps) : Ty → Val → List Char
  | .unit, .unit => ['(', ')']                                     -- 1093-1097
  | .bool, .bool b => if b then ['t', 'r', 'u', 'e'] else ['f', 'a', 'l', 's', 'e']  -- 806-814
  | .int _, .int i => showInt i                                    -- 709-745
  | .f32, .f32 x => fl.show32 x                                    -- 747-753
  | .f64, .f64 x => fl.show64 x
  | .str, .str s => ronStr s
  | .dur, .dur s n => durText s n                                  -- 1307-1317
  | .time, .time s n =>                                            -- 1363-1370
    if 0 ≤ s then durText s.toNat n else noneText
  | .option _, .none => noneText                                   -- 778-789
  | .option t, .some v => serRon env fl t v
  | .vec t, .seq vs => '[' :: (commaEach (serRonAll env fl t vs) ++ [']'])         -- 868-882
  | .hset t, .seq vs => '[' :: (joinSep [','] (serRonAll env fl t vs) ++ [']'])    -- 901-920
  | .linked t, .seq vs => '[' :: (joinSep [','] (serRonAll env fl t vs) ++ [']'])  -- 940-958
  | .bset t, .seq vs => '[' :: (joinSep [','] (serRonAll env fl t vs) ++ [']'])    -- 977-995
  | .array t _, .seq vs => '(' :: (joinSep [','] (serRonAll env fl t vs) ++ [')']) -- 1014-1039
  | .pair a b, .seq vs => '(' :: (joinSep [','] (serRonTys env fl [a, b] vs) ++ [')'])  -- 1107-1119
  | .triple a b c, .seq vs =>                                      -- 1134-1149
    '(' :: (joinSep [','] (serRonTys env fl [a, b, c] vs) ++ [')'])
  | .quad a b c d, .seq vs =>                                      -- 1169-1187
    '(' :: (joinSep [','] (serRonTys env fl [a, b, c, d] vs) ++ [')'])
  | .hmap k t, .seq vs => '{' :: (commaEach (serRonEntries env fl k t vs) ++ ['}'])  -- 1209-1227
  | .bmap k t, .seq vs => '{' :: (commaEach (serRonEntries env fl k t vs) ++ ['}'])  -- 1250-1267
  | .box t, .box v => serRon env fl t v                            -- 1289-1296
  | .named i, .struct vs =>
    match env.defs[i]? with
    | .some (.struct fs _ _) =>                                    -- derive: 42-100
      '(' :: (commaEach (serRonFields env fl true fs vs) ++ [')'])
    | .some (.tuple ts _) =>                                       -- derive: 102-140
      '(' :: (joinSep [',', ' '] (serRonTys env fl ts vs) ++ [')'])
    | _ => []
  | .named i, .variant j vs =>                                     -- derive: 332-439
    match env.defs[i]? with
    | .some (.enum vars) =>
      match vars[j]? with
      | .some ⟨nm, _, .unit⟩ => nm
      | .some ⟨nm, _, .tuple ts⟩ =>
        nm ++ '(' :: (joinSep [','] (serRonTys env fl ts vs) ++ [')'])
      | .some ⟨nm, _, .named fs⟩ =>
        nm ++ '(' :: (commaEach (serRonFields env fl false fs vs) ++ [')'])
      | .none => []
    | _ => []
  | .proxied i, .prox _ p =>                                       -- derive: 14-26
    match env.proxies[i]? with
    | .some px => serRon env fl px.ty p
    | .none => []
  | _, _ => []
/-- Texts of the items in iteration order. -/
def serRonAll (env : Env) (fl : FloatOps) (t : Ty) : List Val → List (List Char)
  | [] => []
  | v :: vs => serRon env fl t v :: serRonAll env fl t vs
/-- Texts `key:value` of the entries in iteration order. -/
def serRonEntries (env : Env) (fl : FloatOps) (k t : Ty) : List Val → List (List Char)
  | [] => []
  | .entry a b :: vs =>
    (serRon env fl k a ++ ':' :: serRon env fl t b) :: serRonEntries env fl k t vs
  | _ :: vs => serRonEntries env fl k t vs
/-- Texts of tuple components. -/
def serRonTys (env : Env) (fl : FloatOps) : List Ty → List Val → List (List Char)
  | t :: ts, v :: vs => serRon env fl t v :: serRonTys env fl ts vs
  | _, _ => []
/-- Fields of a derived struct (derive/src/serde_ron.rs:47-76): skipped fields and `None` in an
`Option` field write nothing.  `attrs = false` is a struct variant (derive/src/serde_ron.rs:
352-377), which ignores `skip` and `rename`. -/
def serRonFields (env : Env) (fl : FloatOps) (attrs : Bool) : List Field → List Val → List (List Char)
  | f :: fs, v :: vs =>
    if attrs ∧ f.skip then serRonFields env fl attrs fs vs
    else if f.optSyn ∧ v.isNone then serRonFields env fl attrs fs vs
    else ronMember (if attrs then f.key else f.name) (serRon env fl f.ty v) ::
      serRonFields env fl attrs fs vs
  | _, _ => []
end

/-- `SerRon::serialize_ron` (src/serde_ron.rs:49-53); `none` is a panic (see `serializeJson`). -/
def serializeRon (env : Env) (fl : FloatOps) (chk : Bool) (t : Ty) (v : Val) : Option (List Char) :=
  if chk ∧ visitsEmptyArray env t v then none else some (serRon env fl t v)

end NS
