import Verif.Spec.JsonDoc
import Verif.Spec.Prog
/-!
# How far a text consists of JSON lexemes

`JScan fl ls txt rest`: `txt` begins with spellings of the lexemes `ls`, layout before each, and goes
on with `rest`, which may be anything.  `JWhole fl ls txt`: nothing but layout follows (a NUL
character counts as the end of the text).
-/
namespace NS

/-- Layout between JSON tokens; unlike in other languages `/*/` is a complete comment. -/
inductive JLayout : List Char → Prop where
  | nil : JLayout []
  | space {c w} : c = ' ' ∨ c = '\n' ∨ c = '\r' ∨ c = '\t' → JLayout w → JLayout (c :: w)
  | line {b w} : '\n' ∉ b → '\x00' ∉ b → JLayout w → JLayout ('/' :: '/' :: (b ++ '\n' :: w))
  | block {b w} : ¬ ['*', '/'] <:+: '*' :: b → '\x00' ∉ b → JLayout w →
      JLayout ('/' :: '*' :: (b ++ '*' :: '/' :: w))
  | short {w} : JLayout w → JLayout ('/' :: '*' :: '/' :: w)

/-- The spelling `s` is as long as possible: the character `c` after it does not continue it. -/
def JLongest (l : Lexeme) (s : List Char) (c : Char) : Prop :=
  match l with
  | .num _ => ¬ ('0' ≤ c ∧ c ≤ '9') ∧ (c = 'e' ∨ c = 'E' → 'e' ∈ s ∨ 'E' ∈ s) ∧
      (c = '.' → '.' ∈ s ∨ 'e' ∈ s ∨ 'E' ∈ s)
  | .word _ => ¬ (('a' ≤ c ∧ c ≤ 'z') ∨ ('A' ≤ c ∧ c ≤ 'Z') ∨ c = '_')
  | _ => True

/-- `txt` is: the lexemes `ls` with layout before each, then `rest`. -/
inductive JScan (fl : FloatOps) : List Lexeme → List Char → List Char → Prop where
  | nil {rest} : JScan fl [] rest rest
  | cons {l ls w s r rest} : JLayout w → JSpell fl l s → (∀ c, r.head? = some c → JLongest l s c) → JScan fl ls r rest →
      JScan fl (l :: ls) (w ++ s ++ r) rest

/-- Only layout remains, up to the end or a NUL. -/
def JScanEnd (txt : List Char) : Prop :=
  ∃ w e r, txt = w ++ e ++ r ∧ JLayout w ∧ (e = [] ∨ ∃ b, e = '/' :: '/' :: b ∧ '\n' ∉ b ∧ '\x00' ∉ b) ∧
    (r = [] ∨ r.head? = some '\x00')

/-- `txt` consists of the lexemes `ls`. -/
def JWhole (fl : FloatOps) (ls : List Lexeme) (txt : List Char) : Prop :=
  ∃ rest, JScan fl ls txt rest ∧ JScanEnd rest

/-- The text does not go on with a lexeme, nor is it at its end. -/
def Illegible (fl : FloatOps) (txt : List Char) : Prop :=
  (¬ ∃ l rest, JScan fl [l] txt rest) ∧ ¬ JScanEnd txt

/-- `+1` for an opening bracket of either kind, `-1` for a closing one. -/
def Lexeme.bracket : Lexeme → Int
  | .punct .blockOpen | .punct .curlyOpen => 1
  | .punct .blockClose | .punct .curlyClose => -1
  | _ => 0

/-- Opening minus closing brackets. -/
def depth (ls : List Lexeme) : Int := (ls.map Lexeme.bracket).sum

/-- After every opening bracket there is a point up to which as many brackets are closed as opened. -/
def BracketsClosed (ls : List Lexeme) : Prop :=
  ∀ pre b post, ls = pre ++ b :: post → b.bracket = 1 → ∃ mid rest, post = mid ++ rest ∧ depth (b :: mid) = 0

/-- A value can begin with this lexeme. -/
def Lexeme.startsValue : Lexeme → Bool
  | .punct .blockOpen | .punct .curlyOpen | .num _ | .word _ | .str _ => true
  | _ => false

/-- Somewhere in the text, all lexemes before it being legible, a colon is followed by a lexeme that
cannot begin a value, or by the end of the text. -/
def ColonWithoutValue (fl : FloatOps) (txt : List Char) : Prop :=
  (∃ ls l rest, JScan fl (ls ++ [.punct .colon, l]) txt rest ∧ l.startsValue = false) ∨
  ∃ ls, JWhole fl (ls ++ [.punct .colon]) txt

/-- Somewhere in the text, all lexemes before it being legible, there is an integer that, as a number of
seconds, is too large for `SystemTime` (or, with a carry from the nanoseconds, for `Duration`). -/
def HugeInteger (fl : FloatOps) (txt : List Char) : Prop :=
  ∃ ls v rest, JScan fl (ls ++ [.num (.nat v)]) txt rest ∧ 2 ^ 63 ≤ v + 1

/-- `Duration` and `SystemTime` do not occur in the type. -/
def noTime : Ty → Bool
  | .dur | .time => false
  | .option t | .vec t | .linked t | .hset t | .bset t | .array t _ | .box t => noTime t
  | .pair a b | .hmap a b | .bmap a b => noTime a && noTime b
  | .triple a b c => noTime a && noTime b && noTime c
  | .quad a b c d => noTime a && noTime b && noTime c && noTime d
  | _ => true

/-- `Duration` and `SystemTime` do not occur in the program. -/
def NoTime (env : Env) : Prop :=
  (∀ d ∈ env.defs, ∀ t ∈ d.tys, noTime t = true) ∧ ∀ p ∈ env.proxies, noTime p.ty = true

/-- Structs and struct variants with named fields do not occur in the program. -/
def NoNamed (env : Env) : Prop :=
  ∀ d ∈ env.defs, (∀ fs cd nul, d = .struct fs cd nul → fs = []) ∧
    ∀ vars, d = .enum vars → ∀ v ∈ vars, ∀ fs, v.shape = .named fs → fs = []

/-- At no point of `post` as many brackets are closed as `b` and the brackets after it have opened. -/
def NeverClosed (b : Lexeme) (post : List Lexeme) : Prop :=
  ∀ mid rest, post = mid ++ rest → depth (b :: mid) ≠ 0

end NS
