import Verif.Spec.JsonDoc
/-!
# RON documents

As in `Verif/Spec/JsonDoc.lean`: `RDoc fl ls txt tail` says that `txt` consists of spellings of the
lexemes `ls` with arbitrary layout before each, followed by `tail`.  `RTree` is the tree of a RON
value, `RTree.lexemes` its lexemes.
-/
namespace NS

/-- Letters and `_`. -/
def IdStart (c : Char) : Prop := ('a' ≤ c ∧ c ≤ 'z') ∨ ('A' ≤ c ∧ c ≤ 'Z') ∨ c = '_'
/-- Letters, `_` and digits. -/
def IdCont (c : Char) : Prop := IdStart c ∨ ('0' ≤ c ∧ c ≤ '9')

/-- Identifiers and the words `true` and `false`. -/
def RWord (w : List Char) : Prop := ∃ c r, w = c :: r ∧ IdStart c ∧ ∀ d ∈ r, IdCont d

/-- Spellings of the lexemes of RON. -/
inductive RSpell (fl : FloatOps) : Lexeme → List Char → Prop where
  | colon : RSpell fl (.punct .colon) [':']
  | comma : RSpell fl (.punct .comma) [',']
  | blockOpen : RSpell fl (.punct .blockOpen) ['[']
  | blockClose : RSpell fl (.punct .blockClose) [']']
  | curlyOpen : RSpell fl (.punct .curlyOpen) ['{']
  | curlyClose : RSpell fl (.punct .curlyClose) ['}']
  | parenOpen : RSpell fl (.punct .parenOpen) ['(']
  | parenClose : RSpell fl (.punct .parenClose) [')']
  | word {w} : RWord w → RSpell fl (.word w) w
  | num {t s} : NumLit fl s t → RSpell fl (.num t) s
  | str {b s} : StrLit b s → RSpell fl (.str s) ('"' :: (b ++ ['"']))

/-- Numbers that begin with a decimal point, `.5` or `.5e3`. -/
def DotNum (fl : FloatOps) (s : List Char) (t : Num) : Prop :=
  ∃ f ex x, s = '.' :: (f ++ ex) ∧ Digits f ∧
    (ex = [] ∨ ∃ e m y, ex = e :: (m ++ y) ∧ (e = 'e' ∨ e = 'E') ∧ (m = [] ∨ m = ['-']) ∧ y ≠ [] ∧ Digits y) ∧
    fl.parse64 s = some x ∧ t = .float x

/-- Two adjacent spellings are not run together. -/
def RSep (l : Lexeme) (r : List Char) : Prop :=
  match l with
  | .num _ => ∀ c, r.head? = some c → c ∉ numCont
  | .word _ => ∀ c, r.head? = some c → ¬ IdCont c
  | _ => True

/-- A text made of lexemes in any layout, and an uninterpreted rest. -/
inductive RDoc (fl : FloatOps) : List Lexeme → List Char → List Char → Prop where
  | nil {tail} : RDoc fl [] tail tail
  | cons {l ls w s r tail} : Layout w → RSpell fl l s → RSep l r → RDoc fl ls r tail →
      RDoc fl (l :: ls) (w ++ s ++ r) tail

/-- A complete text: only layout after the last lexeme. -/
def RFull (fl : FloatOps) (ls : List Lexeme) (txt : List Char) : Prop :=
  ∃ w, LayoutEnd w ∧ RDoc fl ls txt w

/-- RON values as trees: words (`true`, `None`, a unit variant), numbers, strings, lists `[a, b]`,
tuples `(a, b)`, structs `(x: a, y: b)`, maps `{a: b}`, and a name before a tuple or struct.
`trail`: the list ends with a comma (if it is not empty). -/
inductive RTree where
  | word (w : List Char)
  | num (t : Num)
  | str (s : List Char)
  | list (xs : List RTree) (trail : Bool)
  | tuple (xs : List RTree) (trail : Bool)
  | fields (ms : List (List Char × RTree)) (trail : Bool)
  | map (ms : List (RTree × RTree)) (trail : Bool)
  | ctor (w : List Char) (body : RTree)

/-- The lexemes of a tree. -/
def RTree.lexemes : RTree → List Lexeme
  | .word w => [.word w]
  | .num t => [.num t]
  | .str s => [.str s]
  | .list xs trail =>
    .punct .blockOpen :: (commaLexemes trail (xs.attach.map fun x => x.1.lexemes) ++ [.punct .blockClose])
  | .tuple xs trail =>
    .punct .parenOpen :: (commaLexemes trail (xs.attach.map fun x => x.1.lexemes) ++ [.punct .parenClose])
  | .fields ms trail =>
    .punct .parenOpen :: (commaLexemes trail
      (ms.attach.map fun m => .word m.1.1 :: .punct .colon :: m.1.2.lexemes) ++ [.punct .parenClose])
  | .map ms trail =>
    .punct .curlyOpen :: (commaLexemes trail
      (ms.attach.map fun m => m.1.1.lexemes ++ .punct .colon :: m.1.2.lexemes) ++ [.punct .curlyClose])
  | .ctor w body => .word w :: body.lexemes
termination_by t => sizeOf t
decreasing_by
  · have := List.sizeOf_lt_of_mem x.2; simp; omega
  · have := List.sizeOf_lt_of_mem x.2; simp; omega
  · have := List.sizeOf_lt_of_mem m.2
    have h : sizeOf m.1 = 1 + sizeOf m.1.1 + sizeOf m.1.2 := by cases m.1; rfl
    simp; omega
  · have := List.sizeOf_lt_of_mem m.2
    have h : sizeOf m.1 = 1 + sizeOf m.1.1 + sizeOf m.1.2 := by cases m.1; rfl
    simp; omega
  · have := List.sizeOf_lt_of_mem m.2
    have h : sizeOf m.1 = 1 + sizeOf m.1.1 + sizeOf m.1.2 := by cases m.1; rfl
    simp; omega
  · simp; omega

/-- `txt` is a complete text of the RON value `x` (in any layout and spelling). -/
def RText (fl : FloatOps) (x : RTree) (txt : List Char) : Prop := RFull fl x.lexemes txt

end NS
