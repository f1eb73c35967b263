import Verif.Model.Toml
import Verif.Spec.Basic
import Verif.Spec.Text
/-!
# TOML texts and what they mean

Independent of the parser: spellings of tokens, layout, the grammar of values and statements, and
the map a document stands for.
-/
namespace NS

/-! ## Outcomes of `TomlParser::parse` (a function of the fuel) -/

/-- The parser returns `Ok(m)`. -/
def TomlOk (f : Nat → Out TErr Cur TMap) (m : TMap) : Prop :=
  ∃ n₀, ∀ n, n₀ ≤ n → ∃ s, f n = .ok m s
/-- The parser returns an error with the message `why`, at the line `line` (from 0) and column
`col`. -/
def TomlFails (f : Nat → Out TErr Cur TMap) (why : TMsg) (line col : Nat) : Prop :=
  ∃ n₀, ∀ n, n₀ ≤ n → ∃ s, f n = .err ⟨why, line, col⟩ s
/-- The parser panics. -/
def TomlPanics (f : Nat → Out TErr Cur TMap) : Prop := ∃ n₀, ∀ n, n₀ ≤ n → f n = .panic

/-! ## Lexical structure -/

/-- The code points of unquoted keys (toml.abnf, `unquoted-key-char`), as ranges. -/
def bareRanges : List (Nat × Nat) :=
  [(0x41, 0x5A), (0x61, 0x7A), (0x30, 0x39), (0x2D, 0x2D), (0x5F, 0x5F), (0xB2, 0xB2), (0xB3, 0xB3),
   (0xB9, 0xB9), (0xBC, 0xBE), (0xC0, 0xD6), (0xD8, 0xF6), (0xF8, 0x37D), (0x37F, 0x1FFF),
   (0x200C, 0x200D), (0x203F, 0x2040), (0x2070, 0x218F), (0x2460, 0x24FF), (0x2C00, 0x2FEF),
   (0x3001, 0xD7FF), (0xF900, 0xFDCF), (0xFDF0, 0xFFFD), (0x10000, 0xEFFFF)]

/-- A character of an unquoted key: letters, digits, `-`, `_` and most other scripts. -/
def Bare (c : Char) : Prop := ∃ r ∈ bareRanges, r.1 ≤ c.toNat ∧ c.toNat ≤ r.2

/-- A decimal digit. -/
def Digit (c : Char) : Prop := '0' ≤ c ∧ c ≤ '9'

/-- Blank characters. -/
def Blank (c : Char) : Prop := c = ' ' ∨ c = '\n' ∨ c = '\r' ∨ c = '\t'

/-- White space and comments between tokens. -/
inductive TLayout : List Char → Prop where
  | nil : TLayout []
  | space {c w} : Blank c → TLayout w → TLayout (c :: w)
  | comment {b w} : '\n' ∉ b → '\x00' ∉ b → TLayout w → TLayout ('#' :: (b ++ '\n' :: w))

/-- What may follow the last token: layout, the last comment possibly without newline. -/
def TLayoutEnd (w : List Char) : Prop :=
  TLayout w ∨ ∃ a b, TLayout a ∧ '\n' ∉ b ∧ '\x00' ∉ b ∧ w = a ++ '#' :: b

/-- The text `r` does not begin with a character satisfying `p`. -/
def NotBefore (p : Char → Prop) (r : List Char) : Prop := ∀ c, r.head? = some c → ¬ p c

/-- What must follow an unquoted key or a word (unless it is at the end). -/
def Terminated (r : List Char) : Prop :=
  ∀ c, r.head? = some c → c = ' ' ∨ c = '\t' ∨ c = '\r' ∨ c = '\n' ∨ c = '=' ∨ c = ']'

/-- The body of a string: a backslash makes the next character stand for itself. -/
inductive TBody : List Char → List Char → Prop where
  | nil : TBody [] []
  | plain {c b s} : c ≠ '"' → c ≠ '\\' → c ≠ '\x00' → TBody b s → TBody (c :: b) (c :: s)
  | esc {c b s} : TBody b s → TBody ('\\' :: c :: b) (c :: s)

/-- Digits with underscores, beginning with a digit; `ds` are the digits. -/
def Grouped (s ds : List Char) : Prop :=
  (∃ d r, s = d :: r ∧ Digit d) ∧ (∀ c ∈ s, Digit c ∨ c = '_') ∧ ds = s.filter (· ≠ '_')

/-- The words that are values. -/
def tomlWords : List (List Char × TTok) :=
  [(['t', 'r', 'u', 'e'], .bool true), (['f', 'a', 'l', 's', 'e'], .bool false),
   (['i', 'n', 'f'], .inf false), (['n', 'a', 'n'], .nan false)]

/-- `TSpell o s r t`: the characters `s`, followed by the text `r`, spell the token `t`. -/
inductive TSpell (o : TomlOps) : List Char → List Char → TTok → Prop where
  | comma {r} : TSpell o [','] r .comma
  | equals {r} : TSpell o ['='] r .equals
  | blockOpen {r} : TSpell o ['['] r .blockOpen
  | blockClose {r} : TSpell o [']'] r .blockClose
  /-- A string that is not empty. -/
  | str {b s r} : b ≠ [] → TBody b s → TSpell o ('"' :: (b ++ ['"'])) r (.str s)
  /-- A string in triple quotes, with the blank after it. -/
  | long {b s r c} : TBody b s → Blank c →
      TSpell o ('"' :: '"' :: '"' :: (b ++ ['"', '"', '"', c])) r (.str s)
  /-- A string in triple quotes at the very end. -/
  | longEnd {b s} : TBody b s → TSpell o ('"' :: '"' :: '"' :: (b ++ ['"', '"', '"'])) [] (.str s)
  /-- An unquoted key (possibly dotted). -/
  | ident {c w r} : Bare c → ¬ Digit c → c ≠ '-' → (∀ x ∈ w, Bare x ∨ x = '.') →
      c :: w ∉ tomlWords.map Prod.fst → Terminated r → TSpell o (c :: w) r (.ident (c :: w))
  /-- An unquoted key that begins with digits. -/
  | numIdent {ds c w r} : ds ≠ [] → Digits ds → Bare c → ¬ Digit c → c ≠ '-' → c ≠ '_' →
      (∀ x ∈ w, Bare x ∨ x = '.') → Terminated r → TSpell o (ds ++ c :: w) r (.ident (ds ++ c :: w))
  | word {w t r} : (w, t) ∈ tomlWords → Terminated r → TSpell o w r t
  | pos {sg s ds r} : sg = [] ∨ sg = ['+'] → Grouped s ds → decimal ds < 2 ^ 63 →
      NotBefore (fun c => Bare c ∨ c = '.') r → TSpell o (sg ++ s) r (.u64 (decimal ds))
  | neg {s ds r} : Grouped s ds → decimal ds ≤ 2 ^ 63 →
      NotBefore (fun c => Bare c ∨ c = '.') r → TSpell o ('-' :: s) r (.i64 (-(decimal ds : Int)))
  | float {sg sg' s ds f fs x r} : (sg = [] ∧ sg' = [] ∨ sg = ['+'] ∧ sg' = [] ∨ sg = ['-'] ∧ sg' = ['-']) →
      Grouped s ds → Grouped f fs → o.parse64 (sg' ++ ds ++ '.' :: fs) = some x →
      NotBefore (fun c => Digit c ∨ c = '_') r → TSpell o (sg ++ s ++ '.' :: f) r (.f64 x)
  | signedInf {sg b r} : (sg = '+' ∧ b = false ∨ sg = '-' ∧ b = true) → Terminated r →
      TSpell o [sg, 'i', 'n', 'f'] r (.inf b)
  | signedNan {sg b r} : (sg = '+' ∧ b = false ∨ sg = '-' ∧ b = true) → Terminated r →
      TSpell o [sg, 'n', 'a', 'n'] r (.nan b)
  /-- Dates, not interpreted. -/
  | date {ds w r} : ds ≠ [] → Digits ds → (∀ c ∈ w, Digit c ∨ c = ':' ∨ c = '-' ∨ c = 'T') →
      NotBefore (fun c => Digit c ∨ c = ':' ∨ c = '-' ∨ c = 'T') r →
      TSpell o (ds ++ '-' :: w) r (.date (ds ++ '-' :: w))

/-- `TDoc o ts txt tail`: `txt` consists of spellings of the tokens `ts` with arbitrary layout
before each, followed by `tail`. -/
inductive TDoc (o : TomlOps) : List TTok → List Char → List Char → Prop where
  | nil {tail} : TDoc o [] tail tail
  | cons {t ts w s r tail} : TLayout w → TSpell o s r t → TDoc o ts r tail →
      TDoc o (t :: ts) (w ++ s ++ r) tail

/-- A complete text: only layout after the last token. -/
def TFull (o : TomlOps) (ts : List TTok) (txt : List Char) : Prop :=
  ∃ w, TLayoutEnd w ∧ TDoc o ts txt w

/-! ## Grammar of values and statements -/

mutual
/-- The tokens of a value. -/
inductive TValue (o : TomlOps) : Toml → List TTok → Prop where
  | str {s} : TValue o (.str s) [.str s]
  | bool {b} : TValue o (.bool b) [.bool b]
  | nat {n} : TValue o (.num (o.ofU64 n)) [.u64 n]
  | int {i} : TValue o (.num (o.ofI64 i)) [.i64 i]
  | float {x} : TValue o (.num x) [.f64 x]
  | nan {b} : TValue o (.num (if b then 0xfff8000000000000#64 else 0x7ff8000000000000#64)) [.nan b]
  | inf {b} : TValue o (.num (if b then 0xfff0000000000000#64 else 0x7ff0000000000000#64)) [.inf b]
  | date {s} : TValue o (.date s) [.date s]
  | array {vs ts} : TElems o vs ts → TValue o (.simpleArray vs) (.blockOpen :: (ts ++ [.blockClose]))
/-- The tokens between the brackets of an array: the elements, with commas anywhere. -/
inductive TElems (o : TomlOps) : List Toml → List TTok → Prop where
  | nil : TElems o [] []
  | comma {vs ts} : TElems o vs ts → TElems o vs (.comma :: ts)
  | elem {v ts vs ts'} : TValue o v ts → TElems o vs ts' → TElems o (v :: vs) (ts ++ ts')
end

/-- The tokens of a value that is not complete: arrays opened, with some of their elements. -/
inductive TPart (o : TomlOps) : List TTok → Prop where
  | nil : TPart o []
  | «open» {vs ts ts'} : TElems o vs ts → TPart o ts' → TPart o (.blockOpen :: (ts ++ ts'))

/-- A statement of a document. -/
inductive Stmt where
  /-- `[name]` -/
  | sect (name : List Char)
  /-- `[[name]]` -/
  | table (name : List Char)
  /-- `key = value` -/
  | assign (key : List Char) (value : Toml)

/-- The name an unquoted token stands for: numbers and the like as std prints them. -/
inductive TName (o : TomlOps) : TTok → List Char → Prop where
  | ident {s} : TName o (.ident s) s
  | nat {n} : TName o (.u64 n) (Nat.repr n).toList
  | int {i} : TName o (.i64 i) (Int.repr i).toList
  | float {x} : TName o (.f64 x) (o.disp64 x)
  | tru : TName o (.bool true) "true".toList
  | fals : TName o (.bool false) "false".toList
  | nan : TName o (.nan false) "nan".toList
  | nnan : TName o (.nan true) "-nan".toList
  | inf : TName o (.inf false) "inf".toList
  | ninf : TName o (.inf true) "-inf".toList
  | date {s} : TName o (.date s) s

/-- The tokens of a statement. -/
inductive TStmt (o : TomlOps) : Stmt → List TTok → Prop where
  | sect {s} : TStmt o (.sect s) [.blockOpen, .ident s, .blockClose]
  | quoted {s} : TStmt o (.sect s) [.blockOpen, .str s, .blockClose]
  | table {t s} : TName o t s → TStmt o (.table s) [.blockOpen, .blockOpen, t, .blockClose, .blockClose]
  | assign {t k v ts} : TName o t k → TValue o v ts → TStmt o (.assign k v) (t :: .equals :: ts)
  | quotedKey {k v ts} : TValue o v ts → TStmt o (.assign k v) (.str k :: .equals :: ts)

/-- The tokens of a document. -/
inductive TStmts (o : TomlOps) : List Stmt → List TTok → Prop where
  | nil : TStmts o [] []
  | cons {x xs ts ts'} : TStmt o x ts → TStmts o xs ts' → TStmts o (x :: xs) (ts ++ ts')

/-- `txt` is a document with the statements `doc`. -/
def TText (o : TomlOps) (doc : List Stmt) (txt : List Char) : Prop :=
  ∃ ts, TStmts o doc ts ∧ TFull o ts txt

/-- `TUpTo o doc txt tail`: `txt` is a document with the statements `doc`, followed by `key =`, then
possibly by some opened arrays with elements, and then by `tail`, where a value is expected. -/
def TUpTo (o : TomlOps) (doc : List Stmt) (txt tail : List Char) : Prop :=
  ∃ ts t k ts', TStmts o doc ts ∧ (TName o t k ∨ t = .str k) ∧ TPart o ts' ∧
    TDoc o (ts ++ t :: .equals :: ts') txt tail

/-! ## Meaning -/

/-- A key in a section. -/
def qualified (sec key : List Char) : List Char := if sec = [] then key else sec ++ '.' :: key

/-- The assignments, with qualified keys, up to the first `[[..]]` header; `sec` is the section the
statements are in. -/
def assigns (sec : List Char) : List Stmt → List (List Char × Toml)
  | [] => []
  | .sect s :: r => assigns s r
  | .assign k v :: r => (qualified sec k, v) :: assigns sec r
  | .table _ :: _ => []

/-- The `[[..]]` headers in order, each with the assignments up to the next. -/
def tables : List Stmt → List (List Char × List (List Char × Toml))
  | [] => []
  | .table n :: r => (n, assigns [] r) :: tables r
  | _ :: r => tables r

/-- The value a key has after the assignments: that of the last one. -/
def lastAssigned (k : List Char) (as : List (List Char × Toml)) : Option Toml :=
  (as.reverse.find? (fun a => a.1 == k)).map Prod.snd

/-- The map `m` binds exactly what the assignments leave, in key order (as every `BTreeMap` does). -/
def Holding (m : TMap) (as : List (List Char × Toml)) : Prop :=
  m.Pairwise (fun a b => a.1 < b.1) ∧ ∀ k v, (k, v) ∈ m ↔ lastAssigned k as = some v

/-- Two lists of the same length with related items. -/
inductive Matching {α β : Type} (R : α → β → Prop) : List α → List β → Prop where
  | nil : Matching R [] []
  | cons {a b as bs} : R a b → Matching R as bs → Matching R (a :: as) (b :: bs)

/-- Some `[[name]]` header names a key that was assigned before the first such header. -/
def Clashes (doc : List Stmt) : Prop := ∃ n as, (n, as) ∈ tables doc ∧ ∃ v, (n, v) ∈ assigns [] doc

/-- The map a document stands for: under the name of a `[[..]]` header the array of the tables
with that name in order, under other keys the value last assigned. -/
def Stands (doc : List Stmt) (m : TMap) : Prop :=
  m.Pairwise (fun a b => a.1 < b.1) ∧ ∀ k,
    (k ∉ (tables doc).map Prod.fst → ∀ v, (k, v) ∈ m ↔ lastAssigned k (assigns [] doc) = some v) ∧
    (k ∈ (tables doc).map Prod.fst → ∃ ts, (∀ v, (k, v) ∈ m ↔ v = .array ts) ∧
      Matching Holding ts (((tables doc).filter (fun t => t.1 == k)).map Prod.snd))

end NS
