import Verif.Model.Lex
import Verif.Spec.Float
/-!
# Texts as sequences of lexemes

The vocabulary in which the JSON and RON properties about "all token sequences and layouts" are
stated: spellings of lexemes, layout (white space and comments), documents.
-/
namespace NS

/-- A number: a natural number, a negative integer (or `-0`), a float (bit pattern). -/
inductive Num where
  | nat (n : Nat)
  | neg (i : Int)
  | float (x : BitVec 64)
deriving DecidableEq, Repr

/-- A lexical element: a punctuation token, a number, a word (`true`, `null`, an identifier), a
string with its contents, the end of the input. -/
inductive Lexeme where
  | punct (t : Tok)
  | num (t : Num)
  | word (w : List Char)
  | str (s : List Char)
  | eof
deriving DecidableEq, Repr

/-- `d` is a hexadecimal digit, of either case, with value `v`. -/
def HexDig (d : Char) (v : Nat) : Prop :=
  (v < 10 ∧ d.toNat = 48 + v) ∨ (10 ≤ v ∧ v < 16 ∧ (d.toNat = 87 + v ∨ d.toNat = 55 + v))

/-- Four hexadecimal digits with value `v`. -/
def Hex4 (s : List Char) (v : Nat) : Prop :=
  ∃ d3 d2 d1 d0 v3 v2 v1 v0, s = [d3, d2, d1, d0] ∧ HexDig d3 v3 ∧ HexDig d2 v2 ∧ HexDig d1 v1 ∧
    HexDig d0 v0 ∧ v = v3 * 4096 + v2 * 256 + v1 * 16 + v0

/-- What a backslash before `c` (not `u`) stands for: the named control characters, otherwise `c`
itself. -/
def escMeaning (c : Char) : Char :=
  match c with
  | 'n' => '\n' | 'r' => '\r' | 't' => '\t' | 'b' => '\x08' | 'f' => '\x0c' | '0' => '\x00'
  | c => c

/-- `StrLit body s`: the characters `body` between two quotes denote the string `s`. -/
inductive StrLit : List Char → List Char → Prop where
  | nil : StrLit [] []
  | plain {c b s} : c ≠ '"' → c ≠ '\\' → c ≠ '\x00' → StrLit b s → StrLit (c :: b) (c :: s)
  | esc {c b s} : c ≠ 'u' → c ≠ '\x00' → StrLit b s → StrLit ('\\' :: c :: b) (escMeaning c :: s)
  | unicode {h v c b s} : Hex4 h v → c.toNat = v → StrLit b s →
      StrLit ('\\' :: 'u' :: (h ++ b)) (c :: s)
  | surrogates {h l hi lo c b s} : Hex4 h hi → Hex4 l lo → 0xD800 ≤ hi → hi < 0xDC00 →
      0xDC00 ≤ lo → lo < 0xE000 → c.toNat = 0x10000 + (hi - 0xD800) * 0x400 + (lo - 0xDC00) →
      StrLit b s → StrLit ('\\' :: 'u' :: (h ++ '\\' :: 'u' :: (l ++ b))) (c :: s)

/-- Value of a decimal numeral. -/
def decimal : List Char → Nat
  | [] => 0
  | d :: ds => (d.toNat - '0'.toNat) * 10 ^ ds.length + decimal ds

/-- `NumLit fl s t`: `s` spells the number `t`: a natural number up to `u64::MAX`, a negative
integer down to `i64::MIN`, or a literal with a fraction or an exponent, which is a float. -/
inductive NumLit (fl : FloatOps) : List Char → Num → Prop where
  | nat {sg ds} : sg = [] ∨ sg = ['+'] → ds ≠ [] → Digits ds → decimal ds ≤ u64Max →
      NumLit fl (sg ++ ds) (.nat (decimal ds))
  | neg {ds} : ds ≠ [] → Digits ds → decimal ds ≤ 2 ^ 63 →
      NumLit fl ('-' :: ds) (.neg (-(decimal ds : Int)))
  | float {sg ip fr ex x} : sg = [] ∨ sg = ['-'] ∨ sg = ['+'] → sg ++ ip ≠ [] → Digits ip →
      (fr = [] ∨ ∃ f, fr = '.' :: f ∧ Digits f) →
      (ex = [] ∨ ∃ e m y, ex = e :: (m ++ y) ∧ (e = 'e' ∨ e = 'E') ∧ (m = [] ∨ m = ['-']) ∧ y ≠ [] ∧
        Digits y) →
      (fr ≠ [] ∨ ex ≠ []) → fl.parse64 (sg ++ ip ++ fr ++ ex) = some x →
      NumLit fl (sg ++ ip ++ fr ++ ex) (.float x)

/-- Characters that continue a number. -/
def numCont : List Char := ['0', '1', '2', '3', '4', '5', '6', '7', '8', '9', '.', 'e', 'E']

/-- White space and comments between tokens.  A block comment ends at the first `*/`. -/
inductive Layout : List Char → Prop where
  | nil : Layout []
  | space {c w} : c = ' ' ∨ c = '\n' ∨ c = '\r' ∨ c = '\t' → Layout w → Layout (c :: w)
  | line {b w} : '\n' ∉ b → '\x00' ∉ b → Layout w → Layout ('/' :: '/' :: (b ++ '\n' :: w))
  | block {b w} : ¬ ['*', '/'] <:+: '*' :: b → '\x00' ∉ b → Layout w →
      Layout ('/' :: '*' :: (b ++ '*' :: '/' :: w))

/-- What may follow the last token: layout, the last line comment possibly without newline. -/
def LayoutEnd (w : List Char) : Prop :=
  Layout w ∨ ∃ a b, Layout a ∧ '\n' ∉ b ∧ '\x00' ∉ b ∧ w = a ++ '/' :: '/' :: b

end NS
