import Verif.Spec.RonDoc
import Verif.Spec.Layout
/-! # RON texts with the same tokens -/
namespace NS

/-- Two RON texts with the same tokens but different layout between them (the lexemes `ls`
with arbitrary layout before each, then a common rest behind arbitrary layout). -/
def RSameTokens (fl : FloatOps) (txt txt' : List Char) : Prop :=
  ∃ ls t t', RDoc fl ls txt t ∧ RDoc fl ls txt' t' ∧ SameTail t t'

/-- Layout in which character literals are treated like white space. -/
inductive LayoutX : List Char → Prop where
  | nil : LayoutX []
  | layout {a w} : Layout a → LayoutX w → LayoutX (a ++ w)
  | char {c w} : c ≠ '\\' → LayoutX w → LayoutX ('\'' :: c :: '\'' :: w)
  | escaped {c w} : LayoutX w → LayoutX ('\'' :: '\\' :: c :: '\'' :: w)

/-- Layout at the end of a text, where in addition a block comment need not be closed. -/
def LayoutEndX (w : List Char) : Prop :=
  (∃ a b, LayoutX a ∧ LayoutEnd b ∧ w = a ++ b) ∨
  ∃ a b, LayoutX a ∧ w = a ++ '/' :: '*' :: b ∧ ¬ ['*', '/'] <:+: '*' :: b ∧ '\x00' ∉ b

/-- Lexemes with such layout between them. -/
inductive RDocX (fl : FloatOps) : List Lexeme → List Char → List Char → Prop where
  | nil {tail} : RDocX fl [] tail tail
  | cons {l ls w s r tail} : LayoutX w → RSpell fl l s → RSep l r → RDocX fl ls r tail →
      RDocX fl (l :: ls) (w ++ s ++ r) tail

/-- A complete text with such layout. -/
def RFullX (fl : FloatOps) (ls : List Lexeme) (txt : List Char) : Prop :=
  ∃ w, LayoutEndX w ∧ RDocX fl ls txt w

end NS
