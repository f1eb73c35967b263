/-!
# The grammar of RFC 8259

Written from the RFC, independently of the model.  Texts are lists of characters.
-/
namespace NS.Rfc

/-- RFC 8259 §2 `ws`. -/
def Ws (s : List Char) : Prop := ∀ c ∈ s, c = ' ' ∨ c = '\t' ∨ c = '\n' ∨ c = '\r'

/-- RFC 5234 `DIGIT`. -/
def Digit (c : Char) : Prop := 48 ≤ c.toNat ∧ c.toNat ≤ 57

/-- §6: `number = [ minus ] int [ frac ] [ exp ]`. -/
def Number (s : List Char) : Prop :=
  ∃ sg ip fr ex, s = sg ++ ip ++ fr ++ ex ∧ (sg = [] ∨ sg = ['-']) ∧
    (ip = ['0'] ∨ (∃ d ds, ip = d :: ds ∧ Digit d ∧ d ≠ '0' ∧ ∀ c ∈ ds, Digit c)) ∧
    (fr = [] ∨ ∃ f, fr = '.' :: f ∧ f ≠ [] ∧ ∀ c ∈ f, Digit c) ∧
    (ex = [] ∨ ∃ e m x, ex = e :: (m ++ x) ∧ (e = 'e' ∨ e = 'E') ∧ (m = [] ∨ m = ['-'] ∨ m = ['+']) ∧
      x ≠ [] ∧ ∀ c ∈ x, Digit c)

/-- A hexadecimal digit of either case and its value. -/
def HexDigit (d : Char) (v : Nat) : Prop :=
  (v < 10 ∧ d.toNat = 48 + v) ∨ (10 ≤ v ∧ v < 16 ∧ (d.toNat = 87 + v ∨ d.toNat = 55 + v))

/-- `4HEXDIG`. -/
def Hex4 (s : List Char) (v : Nat) : Prop :=
  ∃ a b c d va vb vc vd, s = [a, b, c, d] ∧ HexDigit a va ∧ HexDigit b vb ∧ HexDigit c vc ∧
    HexDigit d vd ∧ v = ((va * 16 + vb) * 16 + vc) * 16 + vd

/-- §7, the two-character escapes and what they represent. -/
def shortEscapes : List (Char × Nat) :=
  [('"', 0x22), ('\\', 0x5C), ('/', 0x2F), ('b', 0x08), ('f', 0x0C), ('n', 0x0A), ('r', 0x0D), ('t', 0x09)]

/-- §7: `StrBody b s`: `b` is a sequence of RFC 8259 `char`s and represents the string `s`. -/
inductive StrBody : List Char → List Char → Prop where
  | nil : StrBody [] []
  | unescaped {c b s} : 0x20 ≤ c.toNat → c.toNat ≠ 0x22 → c.toNat ≠ 0x5C → StrBody b s →
      StrBody (c :: b) (c :: s)
  | short {e x b s} : (e, Char.toNat x) ∈ shortEscapes → StrBody b s → StrBody ('\\' :: e :: b) (x :: s)
  | unicode {h v x b s} : Hex4 h v → Char.toNat x = v → StrBody b s →
      StrBody ('\\' :: 'u' :: (h ++ b)) (x :: s)
  | pair {h l hi lo x b s} : Hex4 h hi → Hex4 l lo → 0xD800 ≤ hi → hi ≤ 0xDBFF → 0xDC00 ≤ lo →
      lo ≤ 0xDFFF → Char.toNat x = 0x10000 + (hi - 0xD800) * 0x400 + (lo - 0xDC00) → StrBody b s →
      StrBody ('\\' :: 'u' :: (h ++ '\\' :: 'u' :: (l ++ b))) (x :: s)

/-- §7: a string literal and the string it represents. -/
def Str (txt s : List Char) : Prop := ∃ b, txt = '"' :: (b ++ ['"']) ∧ StrBody b s

mutual
/-- §3: `value`. -/
inductive Value : List Char → Prop where
  | null : Value ['n', 'u', 'l', 'l']
  | true : Value ['t', 'r', 'u', 'e']
  | false : Value ['f', 'a', 'l', 's', 'e']
  | number {s} : Number s → Value s
  | string {txt s} : Str txt s → Value txt
  | emptyArray {w} : Ws w → Value ('[' :: (w ++ [']']))
  | array {e} : Elements e → Value ('[' :: (e ++ [']']))
  | emptyObject {w} : Ws w → Value ('{' :: (w ++ ['}']))
  | object {m} : Members m → Value ('{' :: (m ++ ['}']))
/-- §5: one or more values separated by commas. -/
inductive Elements : List Char → Prop where
  | one {a v b} : Ws a → Value v → Ws b → Elements (a ++ v ++ b)
  | cons {a v b e} : Ws a → Value v → Ws b → Elements e → Elements (a ++ v ++ b ++ ',' :: e)
/-- §4: one or more members separated by commas. -/
inductive Members : List Char → Prop where
  | one {m} : Member m → Members m
  | cons {m ms} : Member m → Members ms → Members (m ++ ',' :: ms)
/-- §4: `member = string name-separator value`. -/
inductive Member : List Char → Prop where
  | mk {a k key b c v d} : Ws a → Str k key → Ws b → Ws c → Value v → Ws d →
      Member (a ++ k ++ b ++ ':' :: (c ++ v ++ d))
end

/-- §2: `JSON-text = ws value ws`. -/
def Text (s : List Char) : Prop := ∃ a v b, s = a ++ v ++ b ∧ Ws a ∧ Value v ∧ Ws b

end NS.Rfc
