import Verif.Model.Bytes
/-!
# Shared lexical machinery of the JSON and RON readers

`DeJsonState`/`DeRonState` (src/serde_json.rs:127-138, src/serde_ron.rs:118-129) have the same
shape and the two lexers contain textually identical code for strings, `\u` escapes and numbers.
The common part is modelled once, citing both places.
-/
namespace NS

/-- Reading position: the fields `cur`, `line`, `col` of the state together with the `Chars`
iterator.  `txt` is the current character followed by what the iterator still yields; when the
iterator is exhausted and `cur = '\0'`, `txt = []`.  (`line`, `col` are `usize`; an input has
fewer than 2^63 characters, so they are modelled as unbounded.) -/
structure Cur where
  txt : List Char
  line : Nat
  col : Nat
deriving DecidableEq, Repr

/-- `self.cur`. -/
def Cur.ch (c : Cur) : Char := c.txt.headD '\x00'

/-- `next` (src/serde_json.rs:202-214 with `k col = col + 1`, src/serde_ron.rs:193-205 with
`k col = 0`). -/
def Cur.next (k : Nat → Nat) (c : Cur) : Cur :=
  match c.txt with
  | [] => c
  | _ :: t =>
    match t with
    | [] => { c with txt := [] }
    | x :: _ => if x = '\n' then ⟨t, c.line + 1, 0⟩ else ⟨t, c.line, k c.col⟩

/-- `while p(self.cur) { buf.push(self.cur); self.next(i); }` for a test `p` that is false at
`'\0'`-at-end-of-input: the characters passed over and the position after the loop. -/
def Cur.spanAux (k : Nat → Nat) (p : Char → Bool) : List Char → Nat → Nat → List Char × Cur
  | [], l, c => ([], ⟨[], l, c⟩)
  | x :: t, l, c =>
    if p x then
      let n := Cur.next k ⟨x :: t, l, c⟩
      let r := Cur.spanAux k p t n.line n.col
      (x :: r.1, r.2)
    else ([], ⟨x :: t, l, c⟩)

/-- See `Cur.spanAux`. -/
def Cur.span (k : Nat → Nat) (p : Char → Bool) (c : Cur) : List Char × Cur :=
  Cur.spanAux k p c.txt c.line c.col

/-- `cur == '\n' || cur == '\r' || cur == '\t' || cur == ' '` (src/serde_json.rs:453,
src/serde_ron.rs:438). -/
def isWs (c : Char) : Bool := c == '\n' || c == '\r' || c == '\t' || c == ' '

/-- `cur >= '0' && cur <= '9'`. -/
def isDig (c : Char) : Bool := '0' ≤ c && c ≤ '9'

/-- `'a'..='z' | 'A'..='Z' | '_'`. -/
def isIdStart (c : Char) : Bool := ('a' ≤ c && c ≤ 'z') || ('A' ≤ c && c ≤ 'Z') || c == '_'

/-! ## Floating point operations of std

They are parameters; the laws assumed of them are in `Verif/Spec/Float.lean`. -/

/-- `str::parse::<f64>`, `format!("{:?}")` of `f64` and `f32`, and the `as` casts used by the
readers.  Floats are their bit patterns. -/
structure FloatOps where
  parse64 : List Char → Option (BitVec 64)
  show64 : BitVec 64 → List Char
  show32 : BitVec 32 → List Char
  to32 : BitVec 64 → BitVec 32
  ofU64 : Nat → BitVec 64
  ofI64 : Int → BitVec 64

/-- `DeJsonTok` (src/serde_json.rs:105-125) and `DeRonTok` (src/serde_ron.rs:96-116) in one type:
JSON alone has `bareIdent`, `null`; RON alone `ident`, `parenOpen`, `parenClose`.  `DeJsonTok::Char`
is never produced by the JSON lexer. -/
inductive Tok where
  | ident | str
  | u64 (n : Nat) | i64 (i : Int) | f64 (x : BitVec 64)
  | bool (b : Bool) | char (c : Char)
  | bareIdent | null
  | colon | curlyOpen | curlyClose | parenOpen | parenClose | blockOpen | blockClose | comma
  | bof | eof
deriving DecidableEq, Repr

/-- Value of a string of decimal digits. -/
def digitsVal (ds : List Char) : Nat := ds.foldl (fun a d => 10 * a + (d.toNat - 48)) 0

/-- `numbuf.parse::<u64>()` for a buffer of an optional `+` and the digits `ds`: fails without
digits and on overflow. -/
def parseU64 (ds : List Char) : Option Tok :=
  if ds = [] then none else if digitsVal ds ≤ u64Max then some (.u64 (digitsVal ds)) else none

/-- `numbuf.parse::<i64>()` for a buffer of `-` and the digits `ds`. -/
def parseI64 (ds : List Char) : Option Tok :=
  if ds = [] then none else if digitsVal ds ≤ 2 ^ 63 then some (.i64 (-(digitsVal ds : Int))) else none

/-- The number token (src/serde_json.rs:520-580, src/serde_ron.rs:512-572), entered at its first
character; `none` is `err_parse("number")`. -/
def lexNum (k : Nat → Nat) (fl : FloatOps) (c : Cur) : Option Tok × Cur :=
  let a : List Char × Cur := if c.ch = '-' ∨ c.ch = '+' then ([c.ch], c.next k) else ([], c)
  let b := a.2.span k isDig
  let d : List Char × Cur :=
    if b.2.ch = '.' then
      let f := (b.2.next k).span k isDig
      ('.' :: f.1, f.2)
    else ([], b.2)
  let e : List Char × Cur :=
    if d.2.ch = 'e' ∨ d.2.ch = 'E' then
      let m : List Char × Cur :=
        if (d.2.next k).ch = '-' then (['-'], (d.2.next k).next k) else ([], d.2.next k)
      let x := m.2.span k isDig
      (d.2.ch :: (m.1 ++ x.1), x.2)
    else ([], d.2)
  if d.1 ≠ [] ∨ e.1 ≠ [] then
    ((fl.parse64 (a.1 ++ b.1 ++ d.1 ++ e.1)).map Tok.f64, e.2)
  else if a.1 = ['-'] then (parseI64 b.1, e.2)
  else (parseU64 b.1, e.2)

/-- Value of a hexadecimal digit (src/serde_json.rs:694-699, src/serde_ron.rs:696-701). -/
def hexVal (c : Char) : Option Nat :=
  if '0' ≤ c ∧ c ≤ '9' then some (c.toNat - 48)
  else if 'a' ≤ c ∧ c ≤ 'f' then some (c.toNat - 97 + 10)
  else if 'A' ≤ c ∧ c ≤ 'F' then some (c.toNat - 65 + 10)
  else none

/-- `xdigit4` (src/serde_json.rs:689-703, src/serde_ron.rs:691-705): `n` more digits on top of
`acc` (four digits fit `u16`, so nothing overflows). -/
def xdigits (k : Nat → Nat) : Nat → Nat → Cur → Option Nat × Cur
  | 0, acc, c => (some acc, c)
  | n + 1, acc, c =>
    match hexVal c.ch with
    | some d => xdigits k n (acc * 16 + d) (c.next k)
    | none => (none, c)

/-- `core::char::from_u32`. -/
def charOfU32 (n : Nat) : Option Char := if n.isValidChar then some (Char.ofNat n) else none

/-- `hex_unescape_char` (src/serde_json.rs:657-687, src/serde_ron.rs:659-689), entered at the
`u` of `\u`. -/
def hexUnescape (k : Nat → Nat) (c : Cur) : Option Char × Cur :=
  match xdigits k 4 0 (c.next k) with
  | (none, c) => (none, c)
  | (some a, c) =>
    match charOfU32 a with
    | some ch => (some ch, c)
    | none =>
      if (0xd800 ≤ a ∧ a < 0xdc00) ∧ c.ch = '\\' then
        if (c.next k).ch = 'u' then
          match xdigits k 4 0 ((c.next k).next k) with
          | (none, c) => (none, c)
          | (some b, c) =>
            if 0xdc00 ≤ b ∧ b < 0xe000 then
              (charOfU32 ((((a - 0xd800) <<< 10) ||| (b - 0xdc00)) + 0x10000), c)
            else (none, c)
        else (none, c.next k)
      else (none, c)

/-- Single-character escapes (src/serde_json.rs:615-620, src/serde_ron.rs:614-619); any other
character stands for itself (src/serde_json.rs:632, src/serde_ron.rs:631). -/
def escChar (c : Char) : Char :=
  if c = 'n' then '\n' else if c = 'r' then '\r' else if c = 't' then '\t'
  else if c = 'b' then '\x08' else if c = 'f' then '\x0c' else if c = '0' then '\x00' else c

/-- Result of reading a string literal. -/
inductive StrRes where
  | done (c : Cur) (buf : List Char)
  | bad (c : Cur) (buf : List Char)
  | oof

/-- The loop reading a string body and its closing quote (src/serde_json.rs:611-643,
src/serde_ron.rs:610-642), entered after the opening quote.  `bad` is `err_parse("string")`.
The first argument is fuel: every round consumes a character (`lexStr_fuel`). -/
def lexStr (k : Nat → Nat) : Nat → Cur → List Char → StrRes
  | 0, _, _ => .oof
  | n + 1, c, buf =>
    if c.ch = '"' then .done (c.next k) buf
    else if c.ch = '\\' then
      let c1 := c.next k
      if c1.ch = '\x00' then .bad c1 buf
      else if c1.ch = 'u' then
        match hexUnescape k c1 with
        | (some ch, c2) => lexStr k n c2 (buf ++ [ch])
        | (none, c2) => .bad c2 buf
      else lexStr k n (c1.next k) (buf ++ [escChar c1.ch])
    else if c.ch = '\x00' then .bad c buf
    else lexStr k n (c.next k) (buf ++ [c.ch])

/-! ## Parser state and errors -/

/-- `DeJsonState` / `DeRonState` without `numbuf` (which is truncated before every use and never
read afterwards). -/
structure PSt where
  cur : Cur
  tok : Tok
  strbuf : List Char
  identbuf : List Char
deriving DecidableEq, Repr

/-- `DeJsonErrReason` (src/serde_json.rs:140-150), `DeRonErrReason` (src/serde_ron.rs:131-141). -/
inductive Reason where
  | unexpectedKey (name : List Char)
  | unexpectedToken (tok : Tok) (what : List Char)
  | missingKey (name : List Char)
  | noSuchEnum (name : List Char)
  | outOfRange (what : List Char)
  | wrongType (what : List Char)
  | cannotParse (what : List Char)
deriving DecidableEq, Repr

/-- `DeJsonErr` (src/serde_json.rs:153-158), `DeRonErr` (src/serde_ron.rs:144-149). -/
structure PErr where
  line : Nat
  col : Nat
  msg : Reason
deriving DecidableEq, Repr

/-- Code with `s: &mut DeJsonState, i: &mut Chars` (or the RON state). -/
abbrev PM := M PErr PSt

/-- `return Err(DeJsonErr { msg, line: self.line, col: self.col })`. -/
def failWith {α : Type} (f : PSt → Reason) : PM α := fun st =>
  .err ⟨st.cur.line, st.cur.col, f st⟩ st

/-- `err_token` (src/serde_json.rs:240-246, src/serde_ron.rs:231-237). -/
def errToken {α : Type} (what : String) : PM α :=
  failWith fun st => .unexpectedToken st.tok what.toList
/-- `err_parse` (src/serde_json.rs:264-270, src/serde_ron.rs:255-261). -/
def errParse {α : Type} (what : List Char) : PM α := failWith fun _ => .cannotParse what
/-- `err_range` (src/serde_json.rs:248-254, src/serde_ron.rs:239-245). -/
def errRange {α : Type} (what : List Char) : PM α := failWith fun _ => .outOfRange what
/-- `err_nf` (src/serde_json.rs:224-230, src/serde_ron.rs:215-221). -/
def errNf {α : Type} (name : List Char) : PM α := failWith fun _ => .missingKey name
/-- `err_enum` (src/serde_json.rs:232-238, src/serde_ron.rs:223-229). -/
def errEnum {α : Type} (name : List Char) : PM α := failWith fun _ => .noSuchEnum name
/-- `err_exp` (src/serde_json.rs:216-222, src/serde_ron.rs:207-213). -/
def errExp {α : Type} (name : List Char) : PM α := failWith fun _ => .unexpectedKey name

/-! ## Token helpers, parametrised by `next_tok` -/

/-- `if self.tok == t { self.next_tok(i)?; return Ok(()) } Err(self.err_token(what))`:
`colon`, `string`, `block_open`, `block_close`, `curly_open`, `curly_close`
(src/serde_json.rs:329-347, 365-395), RON also `ident`, `paren_open`, `paren_close`
(src/serde_ron.rs:296-314, 330-376). -/
def expectTok (nx : PM Unit) (t : Tok) (what : String) : PM Unit := do
  let st ← M.get
  if st.tok = t then nx else errToken what

/-- `eat_comma_block`, `eat_comma_curly` (src/serde_json.rs:272-281, 318-327), RON also
`eat_comma_paren` (src/serde_ron.rs:263-294). -/
def eatComma (nx : PM Unit) (close : Tok) (what : String) : PM Unit := do
  let st ← M.get
  if st.tok = .comma then nx
  else if st.tok = close then pure ()
  else errToken what

/-- `eat_comma_block`. -/
def eatCommaBlock (nx : PM Unit) : PM Unit := eatComma nx .blockClose ", or ]"
/-- `eat_comma_curly`. -/
def eatCommaCurly (nx : PM Unit) : PM Unit := eatComma nx .curlyClose ", or }"
/-- `eat_comma_paren`. -/
def eatCommaParen (nx : PM Unit) : PM Unit := eatComma nx .parenClose ", or )"
/-- `colon`. -/
def colon (nx : PM Unit) : PM Unit := expectTok nx .colon ":"
/-- `next_colon` (src/serde_json.rs:349-353, src/serde_ron.rs:316-320). -/
def nextColon (nx : PM Unit) : PM Unit := do nx; colon nx
/-- `block_open`. -/
def blockOpen (nx : PM Unit) : PM Unit := expectTok nx .blockOpen "["
/-- `block_close`. -/
def blockClose (nx : PM Unit) : PM Unit := expectTok nx .blockClose "]"
/-- `curly_open`. -/
def curlyOpen (nx : PM Unit) : PM Unit := expectTok nx .curlyOpen "{"
/-- `curly_close`. -/
def curlyClose (nx : PM Unit) : PM Unit := expectTok nx .curlyClose "}"
/-- `paren_open`. -/
def parenOpen (nx : PM Unit) : PM Unit := expectTok nx .parenOpen "("
/-- `paren_close`. -/
def parenClose (nx : PM Unit) : PM Unit := expectTok nx .parenClose ")"

/-- Decimal text of a natural number, `u64::to_string`. -/
def showNat (n : Nat) : List Char := Nat.toDigits 10 n
/-- Decimal text of an integer, `i64::to_string`. -/
def showInt (i : Int) : List Char := if i < 0 then '-' :: showNat i.natAbs else showNat i.natAbs

/-- `u64_range` (src/serde_json.rs:397-405, src/serde_ron.rs:378-386). -/
def u64Range (max : Nat) : PM Nat := do
  let st ← M.get
  match st.tok with
  | .u64 v => if v > max then errRange (showNat v ++ '>' :: showNat max) else pure v
  | _ => errToken "unsigned integer"

/-- `value as i64` for a `u64` value. -/
def u64AsI64 (v : Nat) : Int := if v < 2 ^ 63 then v else (v : Int) - 2 ^ 64

/-- `i64_range` (src/serde_json.rs:407-421, src/serde_ron.rs:388-402). -/
def i64Range (min max : Int) : PM Int := do
  let st ← M.get
  match st.tok with
  | .i64 v => if v < min then errRange (showInt v ++ '<' :: showInt min) else pure v
  | .u64 v =>
    if u64AsI64 v > max then errRange (showNat v ++ '>' :: showInt max) else pure (u64AsI64 v)
  | _ => errToken "signed integer"

/-- `as_f64` (src/serde_json.rs:423-434, src/serde_ron.rs:404-415). -/
def asF64 (fl : FloatOps) : PM (BitVec 64) := do
  let st ← M.get
  match st.tok with
  | .i64 v => pure (fl.ofI64 v)
  | .u64 v => pure (fl.ofU64 v)
  | .f64 x => pure x
  | _ => errToken "floating point"

/-- `as_string` (src/serde_json.rs:443-450, src/serde_ron.rs:427-434): takes the buffer. -/
def asString : PM (List Char) := do
  let st ← M.get
  if st.tok = .str then do
    M.set { st with strbuf := [] }
    pure st.strbuf
  else errToken "string"

/-- `val as $ty` from `u64`/`i64`. -/
def castInt (k : IntKind) (i : Int) : Int := ofTwos k.signed k.bytes (toTwos k.bytes i)

/-- Integer impls (src/serde_json.rs:707-742, 763-771; src/serde_ron.rs:709-745, 766-774). -/
def deInt (nx : PM Unit) (k : IntKind) : PM Val :=
  if k.textual = false then M.oof   -- no impl: not a program
  else if k.signed then do
    let v ← i64Range k.lo k.hi
    nx
    pure (.int (castInt k v))
  else do
    let v ← u64Range k.hi.toNat
    nx
    pure (.int (castInt k v))

/-- `f64` (src/serde_json.rs:744-773, src/serde_ron.rs:747-776). -/
def deF64 (nx : PM Unit) (fl : FloatOps) : PM Val := do
  let x ← asF64 fl
  nx
  pure (.f64 x)
/-- `f32`: parsed as `f64`, then `as f32`. -/
def deF32 (nx : PM Unit) (fl : FloatOps) : PM Val := do
  let x ← asF64 fl
  nx
  pure (.f32 (fl.to32 x))

/-- `impl DeJson for String` (src/serde_json.rs:866-872), RON (src/serde_ron.rs:860-866). -/
def deStr (nx : PM Unit) : PM (List Char) := do
  let s ← asString
  nx
  pure s

/-- `while s.tok != close { body }` where the body maps the accumulator; the first argument is
fuel. -/
def whileNot {α : Type} (close : Tok) (body : α → PM α) : Nat → α → PM α
  | 0, _ => M.oof
  | n + 1, acc => do
    let st ← M.get
    if st.tok = close then pure acc
    else do
      let acc' ← body acc
      whileNot close body n acc'

/-- One element and its separator: `out.push(DeJson::de_json(s, i)?); s.eat_comma_block(i)?`
(src/serde_json.rs:903-904, 979-980; sets 942-943, 1016-1017; RON the same). -/
def seqItem (nx : PM Unit) (x : PM Val) (add : List Val → Val → List Val) (acc : List Val) :
    PM (List Val) := do
  let v ← x
  eatCommaBlock nx
  pure (add acc v)

/-- `Vec`, `LinkedList`, `HashSet`, `BTreeSet` (src/serde_json.rs:894-909, 932-948, 970-985,
1007-1022; src/serde_ron.rs:884-899, 922-938, 960-975, 997-1012). -/
def deSeq (nx : PM Unit) (n : Nat) (x : PM Val) (add : List Val → Val → List Val) : PM Val := do
  blockOpen nx
  let vs ← whileNot .blockClose (seqItem nx x add) n []
  blockClose nx
  pure (.seq vs)

/-- One map entry (src/serde_json.rs:1239-1243, 1281-1285; src/serde_ron.rs:1239-1243,
1278-1282). -/
def mapItem (nx : PM Unit) (k v : PM Val) (add : List Val → Val → List Val) (acc : List Val) :
    PM (List Val) := do
  let a ← k
  colon nx
  let b ← v
  eatCommaCurly nx
  pure (add acc (.entry a b))

/-- `HashMap`, `BTreeMap` (src/serde_json.rs:1235-1247, 1277-1289; src/serde_ron.rs:1235-1247,
1274-1286). -/
def deMap (nx : PM Unit) (n : Nat) (k v : PM Val) (add : List Val → Val → List Val) : PM Val := do
  curlyOpen nx
  let vs ← whileNot .curlyClose (mapItem nx k v add) n []
  curlyClose nx
  pure (.seq vs)

/-- One element of a fixed-size array with its separator (src/serde_json.rs:1066-1069,
src/serde_ron.rs:1056-1059), also a tuple struct's or tuple variant's component
(derive/src/serde_json.rs:484, 613-618; derive/src/serde_ron.rs:302-305, 474-477). -/
def thenEat (x : PM Val) (eat : PM Unit) : PM Val := do
  let v ← x
  eat
  pure v

/-- `de_json_comma_block` (src/serde_json.rs:1094-1101), `de_ron_comma_paren`
(src/serde_ron.rs:1084-1091): the separator is eaten even if the element failed, and its error
wins. -/
def commaAfter (x : PM Val) (eat : PM Unit) : PM Val := fun st =>
  match x st with
  | .ok v s => (eat >>= fun _ => pure v) s
  | .err e s =>
    match eat s with
    | .ok _ s' => .err e s'
    | .err e' s' => .err e' s'
    | .panic => .panic
    | .oof => .oof
  | .panic => .panic
  | .oof => .oof

/-- `Duration::new(secs, nanos)`: carries whole seconds, panics if that overflows. -/
def durNewP (secs nanos : Nat) : PM Val := fun st =>
  if nanos < 1000000000 then .ok (.dur secs nanos) st
  else if secs + nanos / 1000000000 ≤ u64Max then
    .ok (.dur (secs + nanos / 1000000000) (nanos % 1000000000)) st
  else .panic

/-- The value of one member of a `Duration` object, by its key (src/serde_json.rs:1330-1351,
src/serde_ron.rs:1327-1348). -/
def durValue (nx : PM Unit) (acc : Option Nat × Option Nat) (key : List Char) :
    PM (Option Nat × Option Nat) :=
  if key = ['s', 'e', 'c', 's'] then
    if acc.1.isSome then errParse "Duration can only have one secs field".toList
    else do
      colon nx
      let v ← u64Range u64Max
      nx
      pure (some v, acc.2)
  else if key = ['n', 'a', 'n', 'o', 's'] then
    if acc.2.isSome then errParse "Duration can only have one nanos field".toList
    else do
      colon nx
      let v ← u64Range (2 ^ 32 - 1)
      nx
      pure (acc.1, some v)
  else errParse ("Duration can only have secs or nanos fields, got ".toList ++ key)

/-- One member of a `Duration` object (src/serde_json.rs:1328-1353, src/serde_ron.rs:1325-1350). -/
def durItem (nx : PM Unit) (acc : Option Nat × Option Nat) : PM (Option Nat × Option Nat) := do
  let key ← deStr nx
  let acc' ← durValue nx acc key
  eatCommaCurly nx
  pure acc'

/-- `Duration` (src/serde_json.rs:1322-1364, src/serde_ron.rs:1319-1361). -/
def deDur (nx : PM Unit) (n : Nat) : PM Val := do
  curlyOpen nx
  let acc ← whileNot .curlyClose (durItem nx) n (none, none)
  curlyClose nx
  match acc.1 with
  | none => errParse "Duration must have secs field".toList
  | some secs =>
    let nanos := acc.2.getD 0
    if nanos > 1000000000 then errRange "Duration nanos must be at most 1,000,000,000".toList
    else durNewP secs nanos

/-- `SystemTime::UNIX_EPOCH + dur`, `None` being the epoch itself (src/serde_json.rs:1376-1382,
src/serde_ron.rs:1373-1379): panics when the seconds do not fit `i64`. -/
def epochAt (v : Val) : PM Val := fun st =>
  match v with
  | .dur s n => if s < 2 ^ 63 then .ok (.time s n) st else .panic
  | _ => .ok (.time 0 0) st

end NS
