import Verif.Spec.TextErr
import Verif.Spec.Layout
/-! # What the text of an error tells -/
namespace NS

/-- A token whose text depends neither on std's `{:?}` of floats nor on that of characters. -/
def Tok.plain : Tok → Bool
  | .f64 _ | .char _ => false
  | _ => true

/-- The same reason; or unexpected tokens one of which is a floating point number or a character, whose
texts std chooses. -/
def SameReason (r r' : Reason) : Prop :=
  r = r' ∨ ∃ t w t' w', r = .unexpectedToken t w ∧ r' = .unexpectedToken t' w' ∧ (t.plain && t'.plain) = false

/-- What a user sees: all sufficiently long runs fail, with the text `head ++ tail`, `tail` being the
line and column of the place reached in `input` (RON: the column is always 1). -/
def ShowsError (text : PErr → List Char) (f : Nat → Out PErr PSt Val) (head : List Char) (input : List Char) (ron : Bool) : Prop :=
  ∃ n₀, ∀ n, n₀ ≤ n → ∃ e s rd rest, f n = .err e s ∧ input = rd ++ rest ∧
    text e = head ++ ", line:".toList ++ (toString (newlines rd + 1)).toList ++ " col:".toList ++
      (toString ((if ron then 0 else sinceNewline rd) + 1)).toList

end NS
