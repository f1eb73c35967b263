import Verif.Spec.Toml
/-!
# Every text `TomlParser::parse` accepts

`Spec/Toml` describes the documents one would write.  The parser accepts more than that, and some of
it is not TOML.  Here is all of it: every spelling of every token (`TSpells`), the texts that consist
of tokens (`TLexes`), and what the tokens of a document may be (`TReading`).  Nothing here mentions the
parser.
-/
namespace NS

/-- The text is over: nothing is left, or a NUL character follows. -/
def TEnds (r : List Char) : Prop := r = [] ∨ ∃ q, r = '\x00' :: q

/-- What must follow a word: the end, a blank, `=` or `]`. -/
def TWordEnds (r : List Char) : Prop := TEnds r ∨ ∃ c q, r = c :: q ∧ (Blank c ∨ c = '=' ∨ c = ']')

/-- The body of a string in triple quotes: as in a string, and moreover any number of quotes other
than three, with the character after them, which stands for itself (even a backslash or a NUL). -/
inductive TLongBody : List Char → List Char → Prop where
  | nil : TLongBody [] []
  | plain {c b s} : c ≠ '"' → c ≠ '\\' → c ≠ '\x00' → TLongBody b s → TLongBody (c :: b) (c :: s)
  | esc {c b s} : TLongBody b s → TLongBody ('\\' :: c :: b) (c :: s)
  | quotes {n c b s} : n ≠ 0 → n ≠ 3 → c ≠ '"' → TLongBody b s →
      TLongBody (List.replicate n '"' ++ c :: b) (List.replicate n '"' ++ c :: s)

/-- What an unquoted word is: one of the words that are values, or a name. -/
inductive TWordIs : List Char → TTok → Prop where
  | word {w t} : (w, t) ∈ tomlWords → TWordIs w t
  | name {w} : w ∉ tomlWords.map Prod.fst → TWordIs w (.ident w)

/-- Digits and underscores. -/
def Digitish (g : List Char) : Prop := ∀ c ∈ g, Digit c ∨ c = '_'

/-- Without the underscores. -/
def ungrouped (g : List Char) : List Char := g.filter (fun c => c ≠ '_')

/-- `TBegun p r`: what has been read of `nan` or `inf` after a sign is `p`, and `r` does not go on with
that word (or goes on after its end). -/
def TBegun (p r : List Char) : Prop :=
  (p = [] ∧ r.head? ≠ some 'n' ∧ r.head? ≠ some 'i') ∨
  ∃ w q, (w = ['n', 'a', 'n'] ∨ w = ['i', 'n', 'f']) ∧ w = p ++ q ∧ p ≠ [] ∧
    (∀ c, q.head? = some c → r.head? ≠ some c) ∧ (q = [] → ¬ TWordEnds r)

/-- `TLead a n r`: the characters `a` in front of the text `r` begin a number (or what looks like one),
and count as `n`: nothing, if a digit follows; or a sign (`+` does not count), after which there may be
a part of `nan` or `inf`. -/
inductive TLead : List Char → List Char → List Char → Prop where
  | none {c r} : Digit c → TLead [] [] (c :: r)
  | plus {p r} : TBegun p r → TLead ('+' :: p) p r
  | minus {p r} : TBegun p r → TLead ('-' :: p) ('-' :: p) r

/-- `TSpells o s r t`: the characters `s`, followed by the text `r`, are read as the token `t`. -/
inductive TSpells (o : TomlOps) : List Char → List Char → TTok → Prop where
  | comma {r} : TSpells o [','] r .comma
  | equals {r} : TSpells o ['='] r .equals
  | blockOpen {r} : TSpells o ['['] r .blockOpen
  | blockClose {r} : TSpells o [']'] r .blockClose
  /-- A string; the opening quote may be doubled; it is not empty. -/
  | str {q b s r} : q = [] ∨ q = ['"'] → b ≠ [] → TBody b s → TSpells o ('"' :: (q ++ b ++ ['"'])) r (.str s)
  /-- A string in triple quotes: the character after it belongs to it but does not count. -/
  | long {b s c r} : TLongBody b s → c ≠ '"' →
      TSpells o ('"' :: '"' :: '"' :: (b ++ ['"', '"', '"', c])) r (.str s)
  /-- A string in triple quotes at the very end. -/
  | longEnd {b s} : TLongBody b s → TSpells o ('"' :: '"' :: '"' :: (b ++ ['"', '"', '"'])) [] (.str s)
  /-- An unquoted word. -/
  | bare {c w r t} : Bare c → ¬ Digit c → c ≠ '-' → (∀ x ∈ w, Bare x ∨ x = '.') → TWordEnds r →
      TWordIs (c :: w) t → TSpells o (c :: w) r t
  /-- A word after a sign or digits or both: a `+` and the underscores among the digits are lost. -/
  | numBare {a n g c w r t} : TLead a n (g ++ c :: (w ++ r)) → Digitish g →
      Bare c → ¬ Digit c → c ≠ '_' → c ≠ '-' → (∀ x ∈ w, Bare x ∨ x = '.') → TWordEnds r →
      TWordIs (n ++ ungrouped g ++ c :: w) t → TSpells o (a ++ g ++ c :: w) r t
  | signedInf {sg b r} : (sg = '+' ∧ b = false ∨ sg = '-' ∧ b = true) → TWordEnds r →
      TSpells o [sg, 'i', 'n', 'f'] r (.inf b)
  | signedNan {sg b r} : (sg = '+' ∧ b = false ∨ sg = '-' ∧ b = true) → TWordEnds r →
      TSpells o [sg, 'n', 'a', 'n'] r (.nan b)
  | pos {a g r} : a = [] ∨ a = ['+'] → TLead a [] (g ++ r) → Digitish g → ungrouped g ≠ [] →
      decimal (ungrouped g) < 2 ^ 63 → NotBefore (fun c => Bare c ∨ c = '.') r →
      TSpells o (a ++ g) r (.u64 (decimal (ungrouped g)))
  | neg {g r} : TLead ['-'] ['-'] (g ++ r) → Digitish g → ungrouped g ≠ [] →
      decimal (ungrouped g) ≤ 2 ^ 63 → NotBefore (fun c => Bare c ∨ c = '.') r →
      TSpells o ('-' :: g) r (.i64 (-(decimal (ungrouped g) : Int)))
  /-- Whatever is in front of a dot and the digits after it, if std can make a number of it. -/
  | float {a n g f x r} : TLead a n (g ++ '.' :: (f ++ r)) → Digitish g → Digitish f →
      NotBefore (fun c => Digit c ∨ c = '_') r → o.parse64 (n ++ ungrouped g ++ '.' :: ungrouped f) = some x →
      TSpells o (a ++ g ++ '.' :: f) r (.f64 x)
  /-- Dates, not interpreted: whatever is in front of a `-`, and digits, colons, `-` and `T`. -/
  | date {a n g w r} : TLead a n (g ++ '-' :: (w ++ r)) → Digitish g →
      (∀ c ∈ w, Digit c ∨ c = ':' ∨ c = '-' ∨ c = 'T') →
      NotBefore (fun c => Digit c ∨ c = ':' ∨ c = '-' ∨ c = 'T') r →
      TSpells o (a ++ g ++ '-' :: w) r (.date (n ++ ungrouped g ++ '-' :: w))

/-- `TLexes o ts txt tail`: `txt` consists of spellings of the tokens `ts` with layout before each,
followed by `tail`. -/
inductive TLexes (o : TomlOps) : List TTok → List Char → List Char → Prop where
  | nil {tail} : TLexes o [] tail tail
  | cons {t ts w s r tail} : TLayout w → TSpells o s r t → TLexes o ts r tail →
      TLexes o (t :: ts) (w ++ s ++ r) tail

/-- A text up to its end: only layout after the last token. -/
def TLexesAll (o : TomlOps) (ts : List TTok) (txt : List Char) : Prop :=
  ∃ w r, TLayoutEnd w ∧ TEnds r ∧ TLexes o ts txt (w ++ r)

/-- The tokens of an array (possibly of arrays) with the last brackets missing. -/
inductive TOpen (o : TomlOps) : Toml → List TTok → Prop where
  | one {vs ts} : TElems o vs ts → TOpen o (.simpleArray vs) (.blockOpen :: ts)
  | more {vs ts v ts'} : TElems o vs ts → TOpen o v ts' →
      TOpen o (.simpleArray (vs ++ [v])) (.blockOpen :: (ts ++ ts'))

/-- The tokens of a document with the statements `doc`: those of the statements; at the end of the last
one closing brackets may be missing. -/
inductive TReading (o : TomlOps) : List Stmt → List TTok → Prop where
  | all {doc ts} : TStmts o doc ts → TReading o doc ts
  | cut {doc ts t k v ts'} : TStmts o doc ts → TName o t k ∨ t = .str k → TOpen o v ts' →
      TReading o (doc ++ [.assign k v]) (ts ++ t :: .equals :: ts')

/-- `txt` is a document with the statements `doc`. -/
def TSays (o : TomlOps) (doc : List Stmt) (txt : List Char) : Prop :=
  ∃ ts, TReading o doc ts ∧ TLexesAll o ts txt

/-- `txt` begins with the statements `doc`. -/
def TBeginsWith (o : TomlOps) (doc : List Stmt) (txt : List Char) : Prop :=
  ∃ ts tail, TStmts o doc ts ∧ TLexes o ts txt tail

end NS
