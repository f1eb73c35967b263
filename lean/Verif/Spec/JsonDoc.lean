import Verif.Spec.Text
/-!
# JSON documents

`JDoc fl ls txt tail`: `txt` consists of spellings of the lexemes `ls` with arbitrary layout before
each, followed by `tail`.  `JTree` is the tree of a JSON value (more liberal than RFC 8259: a
trailing comma, and keys of any kind), `JTree.lexemes` its lexemes.
-/
namespace NS

/-- Spellings of the lexemes of JSON. -/
inductive JSpell (fl : FloatOps) : Lexeme → List Char → Prop where
  | colon : JSpell fl (.punct .colon) [':']
  | comma : JSpell fl (.punct .comma) [',']
  | blockOpen : JSpell fl (.punct .blockOpen) ['[']
  | blockClose : JSpell fl (.punct .blockClose) [']']
  | curlyOpen : JSpell fl (.punct .curlyOpen) ['{']
  | curlyClose : JSpell fl (.punct .curlyClose) ['}']
  | true : JSpell fl (.word ['t', 'r', 'u', 'e']) ['t', 'r', 'u', 'e']
  | false : JSpell fl (.word ['f', 'a', 'l', 's', 'e']) ['f', 'a', 'l', 's', 'e']
  | null : JSpell fl (.word ['n', 'u', 'l', 'l']) ['n', 'u', 'l', 'l']
  | num {t s} : NumLit fl s t → JSpell fl (.num t) s
  | str {b s} : StrLit b s → JSpell fl (.str s) ('"' :: (b ++ ['"']))

/-- Two adjacent spellings are not run together: the text `r` after a number does not continue it,
that after a word is not a letter. -/
def JSep (l : Lexeme) (r : List Char) : Prop :=
  match l with
  | .num _ => ∀ c, r.head? = some c → c ∉ numCont
  | .word _ => ∀ c, r.head? = some c → ¬ (('a' ≤ c ∧ c ≤ 'z') ∨ ('A' ≤ c ∧ c ≤ 'Z') ∨ c = '_')
  | _ => True

/-- A text made of lexemes in any layout, and an uninterpreted rest. -/
inductive JDoc (fl : FloatOps) : List Lexeme → List Char → List Char → Prop where
  | nil {tail} : JDoc fl [] tail tail
  | cons {l ls w s r tail} : Layout w → JSpell fl l s → JSep l r → JDoc fl ls r tail →
      JDoc fl (l :: ls) (w ++ s ++ r) tail

/-- A complete text: only layout after the last lexeme. -/
def JFull (fl : FloatOps) (ls : List Lexeme) (txt : List Char) : Prop :=
  ∃ w, LayoutEnd w ∧ JDoc fl ls txt w

/-- JSON values as trees.  `trail`: the list ends with a comma (if it is not empty). -/
inductive JTree where
  | null
  | bool (b : Bool)
  | num (t : Num)
  | str (s : List Char)
  | arr (xs : List JTree) (trail : Bool)
  | obj (ms : List (JTree × JTree)) (trail : Bool)

/-- Items separated by commas. -/
def commaLexemes (trail : Bool) : List (List Lexeme) → List Lexeme
  | [] => []
  | [x] => x ++ (if trail then [.punct .comma] else [])
  | x :: y :: r => x ++ .punct .comma :: commaLexemes trail (y :: r)

/-- The lexemes of a tree. -/
def JTree.lexemes : JTree → List Lexeme
  | .null => [.word ['n', 'u', 'l', 'l']]
  | .bool true => [.word ['t', 'r', 'u', 'e']]
  | .bool false => [.word ['f', 'a', 'l', 's', 'e']]
  | .num t => [.num t]
  | .str s => [.str s]
  | .arr xs trail =>
    .punct .blockOpen :: (commaLexemes trail (xs.attach.map fun x => x.1.lexemes) ++ [.punct .blockClose])
  | .obj ms trail =>
    .punct .curlyOpen :: (commaLexemes trail
      (ms.attach.map fun m => m.1.1.lexemes ++ .punct .colon :: m.1.2.lexemes) ++ [.punct .curlyClose])
termination_by t => sizeOf t
decreasing_by
  · have := List.sizeOf_lt_of_mem x.2; simp; omega
  · have := List.sizeOf_lt_of_mem m.2
    have h : sizeOf m.1 = 1 + sizeOf m.1.1 + sizeOf m.1.2 := by cases m.1; rfl
    simp; omega
  · have := List.sizeOf_lt_of_mem m.2
    have h : sizeOf m.1 = 1 + sizeOf m.1.1 + sizeOf m.1.2 := by cases m.1; rfl
    simp; omega

/-- `txt` is a complete text of the JSON value `J` (in any layout and spelling). -/
def JText (fl : FloatOps) (J : JTree) (txt : List Char) : Prop := JFull fl J.lexemes txt

end NS
