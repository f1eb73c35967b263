import Verif.Spec.RonDoc
import Verif.Spec.RonMeans
/-!
# How far a text consists of RON lexemes

As `Verif/Spec/JsonScan.lean` for RON: `RScan fl ls txt rest` says that `txt` begins with spellings of
the lexemes `ls`, layout before each, and goes on with `rest`, which may be anything.
-/
namespace NS

/-- What may stand between RON tokens: white space, comments (`/*/` is a complete comment), and
character literals, which the lexer passes over. -/
inductive RLayout : List Char → Prop where
  | nil : RLayout []
  | space {c w} : c = ' ' ∨ c = '\n' ∨ c = '\r' ∨ c = '\t' → RLayout w → RLayout (c :: w)
  | line {b w} : '\n' ∉ b → '\x00' ∉ b → RLayout w → RLayout ('/' :: '/' :: (b ++ '\n' :: w))
  | block {b w} : ¬ ['*', '/'] <:+: '*' :: b → '\x00' ∉ b → RLayout w →
      RLayout ('/' :: '*' :: (b ++ '*' :: '/' :: w))
  | short {w} : RLayout w → RLayout ('/' :: '*' :: '/' :: w)
  | char {c w} : c ≠ '\\' → RLayout w → RLayout ('\'' :: c :: '\'' :: w)
  | escaped {c w} : RLayout w → RLayout ('\'' :: '\\' :: c :: '\'' :: w)

/-- Spellings of lexemes, including numbers that begin with a decimal point. -/
def RSpells' (fl : FloatOps) (l : Lexeme) (s : List Char) : Prop :=
  RSpell fl l s ∨ ∃ t, l = .num t ∧ DotNum fl s t

/-- The spelling `s` is as long as possible: the character `c` after it does not continue it. -/
def RLongest (l : Lexeme) (s : List Char) (c : Char) : Prop :=
  match l with
  | .num _ => ¬ ('0' ≤ c ∧ c ≤ '9') ∧ (c = 'e' ∨ c = 'E' → 'e' ∈ s ∨ 'E' ∈ s) ∧
      (c = '.' → '.' ∈ s ∨ 'e' ∈ s ∨ 'E' ∈ s)
  | .word _ => ¬ IdCont c
  | _ => True

/-- `txt` is: the lexemes `ls` with layout before each, then `rest`. -/
inductive RScan (fl : FloatOps) : List Lexeme → List Char → List Char → Prop where
  | nil {rest} : RScan fl [] rest rest
  | cons {l ls w s r rest} : RLayout w → RSpells' fl l s → (∀ c, r.head? = some c → RLongest l s c) →
      RScan fl ls r rest → RScan fl (l :: ls) (w ++ s ++ r) rest

/-- Only layout remains, up to the end or a NUL; the last comment need not be closed. -/
def RScanEnd (txt : List Char) : Prop :=
  ∃ w e r, txt = w ++ e ++ r ∧ RLayout w ∧
    (e = [] ∨ (∃ b, e = '/' :: '/' :: b ∧ '\n' ∉ b ∧ '\x00' ∉ b) ∨
      ∃ b, e = '/' :: '*' :: b ∧ ¬ ['*', '/'] <:+: '*' :: b ∧ '\x00' ∉ b) ∧
    (r = [] ∨ r.head? = some '\x00')

/-- `txt` consists of the lexemes `ls`. -/
def RWhole (fl : FloatOps) (ls : List Lexeme) (txt : List Char) : Prop :=
  ∃ rest, RScan fl ls txt rest ∧ RScanEnd rest

/-- `txt` begins with a RON value with the lexemes `ls`: they are followed by the end of the text or by
some legible lexeme — which is not a word if the value is just a word. -/
def RBegins (fl : FloatOps) (ls : List Lexeme) (txt : List Char) : Prop :=
  RWhole fl ls txt ∨ ∃ l rest, RScan fl (ls ++ [l]) txt rest ∧ ¬ ((∃ w, ls = [.word w]) ∧ ∃ w, l = .word w)

/-- What is read where two words `w w'` stand: `true`, `false` and `None` by themselves, but for an enum
the variant is looked up under the second word (it must be a unit variant; the first word can be any
identifier). -/
inductive WordPair (env : Env) : Ty → List Char → List Char → Val → Prop where
  | true {w'} : WordPair env .bool ['t', 'r', 'u', 'e'] w' (.bool true)
  | false {w'} : WordPair env .bool ['f', 'a', 'l', 's', 'e'] w' (.bool false)
  | epoch {w'} : WordPair env .time ['N', 'o', 'n', 'e'] w' (.time 0 0)
  | none {t w'} : WordPair env (.option t) ['N', 'o', 'n', 'e'] w' .none
  | some {t w w' v} : w ≠ ['N', 'o', 'n', 'e'] → WordPair env t w w' v → WordPair env (.option t) w w' (.some v)
  | box {t w w' v} : WordPair env t w w' v → WordPair env (.box t) w w' (.box v)
  | variant {i vars w w' j var} : env.defs[i]? = some (.enum vars) → NotBool w → vars[j]? = some var → var.name = w' →
      (∀ i < j, ∀ u, vars[i]? = some u → u.name ≠ w') → var.shape = .unit →
      WordPair env (.named i) w w' (.variant j [])

/-- The value a text stands for, for a reader of `t`: that of the RON value it begins with, or, where two
words stand instead, that of `WordPair`. -/
def RonReading (env : Env) (fl : FloatOps) (t : Ty) (txt : List Char) (v : Val) : Prop :=
  (∃ x, RBegins fl x.lexemes txt ∧ RonMeans env fl t x v) ∨
  ∃ w w' rest, RScan fl [.word w, .word w'] txt rest ∧ WordPair env t w w' v

end NS
