import Verif.Spec.JsonWhole
import Verif.Spec.RonWhole
import Verif.Model.Stream
/-!
# Several values in one text: what they are
-/
namespace NS

/-- The lexemes are those of values `vs` of the types `ts`, one after the other.  (A string followed by a string is
read as by `StrPair`: as itself, but for an enum as the variant that the *second* string names.) -/
inductive JsonRow (env : Env) (fl : FloatOps) : List Ty → List Lexeme → List Val → Prop where
  | nil : JsonRow env fl [] [] []
  | cons {t ls v ts rest vs} : JsonSays env fl t ls v → ¬ ((∃ a, ls = [.str a]) ∧ ∃ b, rest.head? = some (.str b)) →
      JsonRow env fl ts rest vs → JsonRow env fl (t :: ts) (ls ++ rest) (v :: vs)
  | strs {t a b v ts rest vs} : StrPair env t a b v → JsonRow env fl ts (.str b :: rest) vs →
      JsonRow env fl (t :: ts) (.str a :: .str b :: rest) (v :: vs)

/-- The same for RON, with words. -/
inductive RonRow (env : Env) (fl : FloatOps) : List Ty → List Lexeme → List Val → Prop where
  | nil : RonRow env fl [] [] []
  | cons {t x v ts rest vs} : RonMeans env fl t x v →
      ¬ ((∃ a, x.lexemes = [.word a]) ∧ ∃ b, rest.head? = some (.word b)) →
      RonRow env fl ts rest vs → RonRow env fl (t :: ts) (x.lexemes ++ rest) (v :: vs)
  | words {t a b v ts rest vs} : WordPair env t a b v → RonRow env fl ts (.word b :: rest) vs →
      RonRow env fl (t :: ts) (.word a :: .word b :: rest) (v :: vs)

/-- An enum, possibly inside `Option`s, boxes, transparent newtypes and proxies. -/
inductive EnumLike (env : Env) : Ty → Prop where
  | enum {i vars} : env.defs[i]? = some (.enum vars) → EnumLike env (.named i)
  | option {t} : EnumLike env t → EnumLike env (.option t)
  | box {t} : EnumLike env t → EnumLike env (.box t)
  | transparent {i t} : env.defs[i]? = some (.tuple [t] true) → EnumLike env t → EnumLike env (.named i)
  | proxied {i px} : env.proxies[i]? = some px → EnumLike env px.ty → EnumLike env (.proxied i)

/-- Separators: white space and comments, beginning with white space (for instance a newline). -/
def Spacing (w : List Char) : Prop := Layout w ∧ ∃ c r, w = c :: r ∧ (c = ' ' ∨ c = '\n' ∨ c = '\r' ∨ c = '\t')

/-- A value in a text of several: what was written, what should be read, its text, the separator after it. -/
structure Item where
  written : Val
  read : Val
  text : List Char
  sep : List Char

/-- The whole text. -/
def itemsText (items : List Item) : List Char := items.flatMap fun x => x.text ++ x.sep

/-- The text is a JSON string. -/
def IsStrText (fl : FloatOps) (txt : List Char) : Prop := ∃ s, JText fl (.str s) txt
/-- The text is a single RON word. -/
def IsWordText (fl : FloatOps) (txt : List Char) : Prop := ∃ s, RText fl (.word s) txt

/-- All runs with a budget of at least some `N` return `a`, and the text is at its end. -/
def DecodesAll {α : Type} (f : Nat → Out PErr PSt α) (a : α) : Prop :=
  ∃ N, ∀ n, N ≤ n → ∃ s, f n = .ok a s ∧ s.tok = .eof

end NS
