import Verif.Spec.Text
/-! # Huge integers in a text -/
namespace NS

/-- Somewhere in the text there is a run of decimal digits whose value is at least `2^63 - 1`. -/
def HugeDigits (txt : List Char) : Prop :=
  ∃ a ds b, txt = a ++ ds ++ b ∧ Digits ds ∧ 2 ^ 63 ≤ decimal ds + 1

end NS
