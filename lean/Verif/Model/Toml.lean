import Verif.Model.Lex
import Verif.Model.Ron
/-!
# Model of `src/toml.rs`

`TomlParser` keeps the current character and the line (the column is reset to 0 on every step,
src/toml.rs:389-401), so the reading position is a `Cur` stepped with `rcol`.  Tokens are returned,
not stored.
-/
namespace NS

/-- What the TOML parser uses of std: besides `FloatOps`, `f64::to_string` (`Display`). -/
structure TomlOps extends FloatOps where
  disp64 : BitVec 64 → List Char

/-- `TomlTok` (src/toml.rs:60-79). -/
inductive TTok where
  | ident (s : List Char) | str (s : List Char)
  | u64 (n : Nat) | i64 (i : Int) | f64 (x : BitVec 64)
  | bool (b : Bool) | nan (neg : Bool) | inf (neg : Bool) | date (s : List Char)
  | equals | blockOpen | blockClose | comma | eof
deriving DecidableEq, Repr

/-- `impl From<TomlTok> for String` (src/toml.rs:81-112). -/
def TTok.text (o : TomlOps) : TTok → List Char
  | .ident s => s
  | .str s => s
  | .u64 n => showNat n
  | .i64 i => showInt i
  | .f64 x => o.disp64 x
  | .bool b => if b then ['t', 'r', 'u', 'e'] else ['f', 'a', 'l', 's', 'e']
  | .nan neg => if neg then ['-', 'n', 'a', 'n'] else ['n', 'a', 'n']
  | .inf neg => if neg then ['-', 'i', 'n', 'f'] else ['i', 'n', 'f']
  | .date s => s
  | .equals => ['=']
  | .blockOpen => ['[']
  | .blockClose => [']']
  | .comma => [',']
  | .eof => ['\x00']

/-- `Toml` (src/toml.rs:114-123).  A `BTreeMap<String, Toml>` is the list of its entries in key
order (see `tInsert`); an `f64` is its bit pattern. -/
inductive Toml where
  | str (s : List Char)
  | bool (b : Bool)
  | num (x : BitVec 64)
  | date (s : List Char)
  | array (ts : List (List (List Char × Toml)))
  | simpleArray (vs : List Toml)
deriving Repr

/-- `BTreeMap<String, Toml>`. -/
abbrev TMap := List (List Char × Toml)

/-- Order of strings: Rust compares the UTF-8 bytes, which is the order of the code points. -/
def strLt : List Char → List Char → Bool
  | _, [] => false
  | [], _ :: _ => true
  | a :: s, b :: t => if a.toNat < b.toNat then true else if b.toNat < a.toNat then false else strLt s t

/-- `BTreeMap::get`. -/
def tGet (k : List Char) : TMap → Option Toml
  | [] => none
  | e :: m => if e.1 = k then some e.2 else tGet k m

/-- `BTreeMap::insert`. -/
def tInsert (k : List Char) (v : Toml) : TMap → TMap
  | [] => [(k, v)]
  | e :: m =>
    if e.1 = k then (k, v) :: m
    else if strLt k e.1 then (k, v) :: e :: m
    else e :: tInsert k v m

/-- The message of a `TomlErr` (src/toml.rs:403-417): `Unexpected token ..` or
`Cannot parse toml ..`. -/
inductive TMsg where
  | token (t : TTok)
  | parse (what : List Char)
deriving DecidableEq, Repr

/-- `TomlErr` (src/toml.rs:195-202). -/
structure TErr where
  msg : TMsg
  line : Nat
  col : Nat
deriving DecidableEq, Repr

/-- Code with `&mut self, i: &mut Chars`. -/
abbrev TM := M TErr Cur

/-- `err_token` (src/toml.rs:403-409). -/
def tErrToken {α : Type} (t : TTok) : TM α := fun c => .err ⟨.token t, c.line, c.col⟩ c
/-- `err_parse` (src/toml.rs:411-417). -/
def tErrParse {α : Type} (what : String) : TM α := fun c => .err ⟨.parse what.toList, c.line, c.col⟩ c

/-- `next` (src/toml.rs:389-401). -/
def Cur.tnext (c : Cur) : Cur := c.next rcol

/-- `ident_chars!()` (src/toml.rs:10-35). -/
def isTIdent (c : Char) : Bool :=
  let n := c.toNat
  (0x41 ≤ n && n ≤ 0x5A) || (0x61 ≤ n && n ≤ 0x7A) || (0x30 ≤ n && n ≤ 0x39) || n == 0x2D || n == 0x5F
  || n == 0xB2 || n == 0xB3 || n == 0xB9 || (0xBC ≤ n && n ≤ 0xBE) || (0xC0 ≤ n && n ≤ 0xD6)
  || (0xD8 ≤ n && n ≤ 0xF6) || (0xF8 ≤ n && n ≤ 0x37D) || (0x37F ≤ n && n ≤ 0x1FFF)
  || (0x200C ≤ n && n ≤ 0x200D) || (0x203F ≤ n && n ≤ 0x2040) || (0x2070 ≤ n && n ≤ 0x218F)
  || (0x2460 ≤ n && n ≤ 0x24FF) || (0x2C00 ≤ n && n ≤ 0x2FEF) || (0x3001 ≤ n && n ≤ 0xD7FF)
  || (0xF900 ≤ n && n ≤ 0xFDCF) || (0xFDF0 ≤ n && n ≤ 0xFFFD) || (0x10000 ≤ n && n ≤ 0xEFFFF)

/-- `ident_term_chars!()` (src/toml.rs:37-42). -/
def isTTerm (c : Char) : Bool :=
  c == ' ' || c == '\t' || c == '\r' || c == '\n' || c == '\x00' || c == '=' || c == ']'

/-- `'0'..='9' | '_'` (src/toml.rs:568, 579). -/
def isDigU (c : Char) : Bool := isDig c || c == '_'

/-- `'0'..='9' | ':' | '-' | 'T'` (src/toml.rs:594). -/
def isTDate (c : Char) : Bool := isDig c || c == ':' || c == '-' || c == 'T'

/-- The loop of `next_tok` as far as comments go (src/toml.rs:424, 444-452); entered after the
white space.  The first argument is fuel: every round consumes the `#`. -/
def tComments : Nat → Cur → Option Cur
  | 0, _ => none
  | n + 1, c =>
    if c.ch = '#' then
      tComments n ((c.span rcol (fun x => x != '\n' && x != '\x00')).2.span rcol isWs).2
    else some c

/-- Opening quotes (src/toml.rs:456-461), entered after the first: at most `n` more are passed;
their number is returned. -/
def tQuotes : Nat → Cur → Nat × Cur
  | 0, c => (0, c)
  | n + 1, c => if c.ch = '"' then ((tQuotes n c.tnext).1 + 1, (tQuotes n c.tnext).2) else (0, c)

/-- The body of a string (src/toml.rs:463-487) in the mode `long = escaped_string`, with `val` read
so far, up to the `break`.  The first argument is fuel: every round consumes a character or is at
the end. -/
def tStrBody (long : Bool) : Nat → List Char → TM (List Char)
  | 0, _ => M.oof
  | n + 1, val => fun c =>
    if c.ch = '"' then
      if long then
        let q := c.span rcol (· == '"')
        if q.1.length = 3 then .ok val q.2
        else tStrBody long n (val ++ q.1 ++ [q.2.ch]) q.2.tnext
      else .ok val c
    else if c.ch = '\\' then tStrBody long n (val ++ [c.tnext.ch]) c.tnext.tnext
    else if c.ch = '\x00' then tErrParse "string" c
    else tStrBody long n (val ++ [c.ch]) c.tnext

/-- A string token (src/toml.rs:454-490). -/
def tStr : TM TTok := fun c =>
  let q := tQuotes 2 c.tnext
  match tStrBody (q.1 == 2) (q.2.txt.length + 2) [] q.2 with
  | .ok val c' => .ok (.str val) c'.tnext
  | .err e c' => .err e c'
  | .panic => .panic
  | .oof => .oof

/-- `parse_ident` (src/toml.rs:497-521), entered with the characters `start` already read.  Its
recursion after a `.` only resumes the loop, so that the characters passed over are the maximal run
of ident characters and dots. -/
def tIdent (start : List Char) : TM TTok := fun c =>
  let r := c.span rcol (fun x => isTIdent x || x == '.')
  let w := start ++ r.1
  if isTTerm r.2.ch then
    .ok (if w = ['t', 'r', 'u', 'e'] then .bool true
      else if w = ['f', 'a', 'l', 's', 'e'] then .bool false
      else if w = ['i', 'n', 'f'] then .inf false
      else if w = ['n', 'a', 'n'] then .nan false
      else .ident w) r.2
  else tErrParse "tokenizer" r.2

/-- An optional sign in front of a numeral: is it `-`, and the rest. -/
def splitSign : List Char → Bool × List Char
  | [] => (false, [])
  | c :: ds => if c = '-' then (true, ds) else if c = '+' then (false, ds) else (false, c :: ds)

/-- `str::parse::<i64>`. -/
def parseI64Str (s : List Char) : Option Int :=
  let r := splitSign s
  if r.2 = [] then none
  else if ¬ r.2.all isDig then none
  else if r.1 then (if digitsVal r.2 ≤ 2 ^ 63 then some (-(digitsVal r.2 : Int)) else none)
  else (if digitsVal r.2 < 2 ^ 63 then some (digitsVal r.2 : Int) else none)

/-- Trying to read the word `w` (`nan` or `inf`) one character at a time (src/toml.rs:536-566):
the characters passed over, whether all were there, and the position. -/
def tWord : List Char → Cur → List Char × Bool × Cur
  | [], c => ([], true, c)
  | x :: w, c =>
    if c.ch = x then
      let r := tWord w c.tnext
      (x :: r.1, r.2.1, r.2.2)
    else ([], false, c)

/-- `parse_num` from the digits on (src/toml.rs:568-609); `num` has been read. -/
def tNumRest (o : TomlOps) (negative : Bool) (num : List Char) : TM TTok := fun c =>
  let d := c.span rcol isDigU
  let num := num ++ d.1.filter (· != '_')
  if d.2.ch = '.' then
    let f := d.2.tnext.span rcol isDigU
    match o.parse64 (num ++ '.' :: f.1.filter (· != '_')) with
    | some x => .ok (.f64 x) f.2
    | none => tErrParse "number" f.2
  else if d.2.ch = '-' then
    let e := d.2.tnext.span rcol isTDate
    .ok (.date (num ++ '-' :: e.1)) e.2
  else if isTIdent d.2.ch then tIdent num d.2
  else
    match parseI64Str num with
    | some n => .ok (if negative then .i64 n else .u64 n.toNat) d.2
    | none => tErrParse "tokenizer" d.2

/-- `parse_num` (src/toml.rs:523-610). -/
def tNum (o : TomlOps) : TM TTok := fun c =>
  let a : List Char × Bool × Cur :=
    if c.ch = '+' then ([], false, c.tnext)
    else if c.ch = '-' then (['-'], true, c.tnext)
    else ([], false, c)
  if a.2.2.ch = 'n' then
    let w := tWord ['n', 'a', 'n'] a.2.2
    if w.2.1 && isTTerm w.2.2.ch then .ok (.nan a.2.1) w.2.2
    else tNumRest o a.2.1 (a.1 ++ w.1) w.2.2
  else if a.2.2.ch = 'i' then
    let w := tWord ['i', 'n', 'f'] a.2.2
    if w.2.1 && isTTerm w.2.2.ch then .ok (.inf a.2.1) w.2.2
    else tNumRest o a.2.1 (a.1 ++ w.1) w.2.2
  else tNumRest o a.2.1 a.1 a.2.2

/-- The match on the current character in `next_tok` once white space and comments are passed
(src/toml.rs:426-493). -/
def tTok (o : TomlOps) : TM TTok := fun c =>
  if c.ch = '\x00' then .ok .eof c
  else if c.ch = ',' then .ok .comma c.tnext
  else if c.ch = '[' then .ok .blockOpen c.tnext
  else if c.ch = ']' then .ok .blockClose c.tnext
  else if c.ch = '=' then .ok .equals c.tnext
  else if c.ch = '+' ∨ c.ch = '-' ∨ isDig c.ch then tNum o c
  else if c.ch = '"' then tStr c
  else if isTIdent c.ch then tIdent [] c
  else tErrParse "tokenizer" c

/-- `next_tok` (src/toml.rs:419-495). -/
def tNext (o : TomlOps) : TM TTok := fun c =>
  match tComments (c.txt.length + 1) (c.span rcol isWs).2 with
  | none => .oof
  | some c' => tTok o c'

/-- `Toml::Num(if v { -f64::NAN } else { f64::NAN })`: the bits of `f64::NAN` and its negation. -/
def nanBits (neg : Bool) : BitVec 64 := if neg then 0xfff8000000000000#64 else 0x7ff8000000000000#64
/-- The bits of the infinities. -/
def infBits (neg : Bool) : BitVec 64 := if neg then 0xfff0000000000000#64 else 0x7ff0000000000000#64

mutual
/-- `to_val` (src/toml.rs:339-365); the first argument is fuel. -/
def tVal (o : TomlOps) : Nat → TTok → TM Toml
  | 0, _ => M.oof
  | n + 1, tok =>
    match tok with
    | .blockOpen => do
      let vs ← tVals o n []
      pure (.simpleArray vs)
    | .str s => pure (.str s)
    | .u64 v => pure (.num (o.ofU64 v))
    | .i64 v => pure (.num (o.ofI64 v))
    | .f64 x => pure (.num x)
    | .bool b => pure (.bool b)
    | .nan b => pure (.num (nanBits b))
    | .inf b => pure (.num (infBits b))
    | .date s => pure (.date s)
    | t => tErrToken t
/-- The loop over the elements of an array (src/toml.rs:344-352) with `vals` read so far. -/
def tVals (o : TomlOps) : Nat → List Toml → TM (List Toml)
  | 0, _ => M.oof
  | n + 1, vals => do
    let tok ← tNext o
    if tok = .blockClose ∨ tok = .eof then pure vals
    else if tok ≠ .comma then do
      let v ← tVal o n tok
      tVals o n (vals ++ [v])
    else tVals o n vals
end

/-- `Out` (src/toml.rs:222-225) and `local_scope` (src/toml.rs:268). -/
structure TOut where
  out : TMap
  active : Option (List Char × Nat)
  scope : List Char

/-- `Out::start_array` (src/toml.rs:227-242); `none` is the `unreachable!()` panic. -/
def TOut.startArray (key : List Char) (u : TOut) : Option TOut :=
  let out := if (tGet key u.out).isNone then tInsert key (.array []) u.out else u.out
  match tGet key out with
  | some (.array ts) => some { u with out := tInsert key (.array (ts ++ [[]])) out, active := some (key, ts.length) }
  | _ => none

/-- `out.out().insert(key, val)` (src/toml.rs:244-254, 385); `none` is a panic (`unwrap`, the index
or `unreachable!()`). -/
def TOut.put (key : List Char) (v : Toml) (u : TOut) : Option TOut :=
  match u.active with
  | none => some { u with out := tInsert key v u.out }
  | some (table, n) =>
    match tGet table u.out with
    | some (.array ts) =>
      match ts[n]? with
      | some m => some { u with out := tInsert table (.array (ts.set n (tInsert key v m))) u.out }
      | none => none
    | _ => none

/-- `if tok != t { return Err(self.err_token(tok)) }` after `next_tok`. -/
def tExpect (o : TomlOps) (t : TTok) : TM Unit := do
  let tok ← tNext o
  if tok ≠ t then tErrToken tok else pure ()

/-- Unwrap or panic. -/
def orPanic {α : Type} (x : Option α) : TM α := fun c =>
  match x with
  | some a => .ok a c
  | none => .panic

/-- `parse_key_value` (src/toml.rs:367-387); `out.out()`, evaluated by the caller
(src/toml.rs:333), is merged with the insertion: it changes nothing and depends on nothing the
parsing in between could change.  (It panics before the parsing, if at all: see `tLine`.) -/
def tKeyValue (o : TomlOps) (n : Nat) (key : List Char) (u : TOut) : TM TOut := do
  tExpect o .equals
  let tok ← tNext o
  let v ← tVal o n tok
  orPanic (u.put (if u.scope ≠ [] then u.scope ++ '.' :: key else key) v)

/-- May the token be a key? (src/toml.rs:325-333) -/
def TTok.isKey : TTok → Bool
  | .str _ | .ident _ | .u64 _ | .i64 _ | .f64 _ | .bool _ | .nan _ | .inf _ | .date _ => true
  | _ => false

/-- May the token be the name in a `[[name]]` header? (src/toml.rs:301-308) -/
def TTok.isTable : TTok → Bool
  | .ident _ | .u64 _ | .i64 _ | .f64 _ | .bool _ | .nan _ | .inf _ | .date _ => true
  | _ => false

/-- A header after its first `[` (src/toml.rs:286-324). -/
def tHeader (o : TomlOps) (u : TOut) : TM TOut := do
  let tok ← tNext o
  match tok with
  | .str key => do
    tExpect o .blockClose
    pure { u with scope := key }
  | .ident key => do
    tExpect o .blockClose
    pure { u with scope := key }
  | .blockOpen => do
    let tok ← tNext o
    if tok.isTable then do
      tExpect o .blockClose
      tExpect o .blockClose
      let u ← orPanic (u.startArray (tok.text o))
      pure { u with scope := [] }
    else tErrToken tok
  | t => tErrToken t

/-- `parse_line` (src/toml.rs:274-337); `none` is `Ok(false)`. -/
def tLine (o : TomlOps) (n : Nat) (u : TOut) : TM (Option TOut) := do
  let tok ← tNext o
  if tok = .eof then pure none
  else if tok = .blockOpen then do
    let u ← tHeader o u
    pure (some u)
  else if tok.isKey then do
    let u ← tKeyValue o n (tok.text o) u
    pure (some u)
  else tErrToken tok

/-- `while t.parse_line(..)? {}` (src/toml.rs:269); the first argument is fuel. -/
def tLoop (o : TomlOps) : Nat → TOut → TM TMap
  | 0, _ => M.oof
  | n + 1, u => do
    let r ← tLine o n u
    match r with
    | some u => tLoop o n u
    | none => pure u.out

/-- `TomlParser::parse` (src/toml.rs:259-272), with `n` units of fuel. -/
def parseToml (o : TomlOps) (n : Nat) (data : List Char) : Out TErr Cur TMap :=
  tLoop o n ⟨[], none, []⟩ (Cur.next rcol ⟨'\x00' :: data, 0, 0⟩)

end NS
