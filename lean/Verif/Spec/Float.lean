import Verif.Model.Lex
import Verif.Spec.Rfc8259
/-!
# Assumptions about std's floating point formatting and parsing

`FloatLaws` is the part of std's contract that the float properties depend on.  It is a hypothesis
of those theorems, not an axiom; `toyFloat_laws` (Verif/Props/Examples.lean) shows it is satisfiable.
-/
namespace NS

/-- All characters are decimal digits. -/
def Digits (s : List Char) : Prop := ∀ c ∈ s, '0' ≤ c ∧ c ≤ '9'

/-- `[-] digits [. digits] [e [-] digits]` with at least one of the two optional parts and no
superfluous leading zero: the shape of `format!("{:?}", x)` for a finite float. -/
def FloatLit (s : List Char) : Prop :=
  ∃ sg ip fr ex, s = sg ++ ip ++ fr ++ ex ∧ (sg = [] ∨ sg = ['-']) ∧ ip ≠ [] ∧ Digits ip ∧
    (fr = [] ∨ ∃ f, fr = '.' :: f ∧ f ≠ [] ∧ Digits f) ∧
    (ex = [] ∨ ∃ m x, ex = 'e' :: (m ++ x) ∧ (m = [] ∨ m = ['-']) ∧ x ≠ [] ∧ Digits x) ∧
    (fr ≠ [] ∨ ex ≠ []) ∧ (ip = ['0'] ∨ ip.head? ≠ some '0')

/-- Neither infinite nor NaN. -/
def finite64 (x : BitVec 64) : Prop := x.toNat / 2 ^ 52 % 2048 ≠ 2047
/-- Neither infinite nor NaN. -/
def finite32 (x : BitVec 32) : Prop := x.toNat / 2 ^ 23 % 256 ≠ 255

instance (x) : Decidable (finite64 x) := inferInstanceAs (Decidable (_ ≠ _))
instance (x) : Decidable (finite32 x) := inferInstanceAs (Decidable (_ ≠ _))

/-- What is assumed of std (documented behaviour of `{:?}` and `str::parse` for floats). -/
structure FloatLaws (fl : FloatOps) : Prop where
  lit64 : ∀ x, finite64 x → FloatLit (fl.show64 x)
  parse_show64 : ∀ x, finite64 x → fl.parse64 (fl.show64 x) = some x
  lit32 : ∀ x, finite32 x → FloatLit (fl.show32 x)
  parse_show32 : ∀ x, finite32 x → ∃ y, fl.parse64 (fl.show32 x) = some y ∧ fl.to32 y = x
  nonfinite64 : ∀ x, ¬ finite64 x → fl.show64 x ∈ [['N', 'a', 'N'], ['i', 'n', 'f'], ['-', 'i', 'n', 'f']]
  nonfinite32 : ∀ x, ¬ finite32 x → fl.show32 x ∈ [['N', 'a', 'N'], ['i', 'n', 'f'], ['-', 'i', 'n', 'f']]
  /-- Every JSON number is accepted by `parse`. -/
  parse_total : ∀ s, Rfc.Number s → (fl.parse64 s).isSome
  /-- A mantissa followed by an exponent marker without digits is rejected. -/
  parse_bare_exp : ∀ t e m, (e = 'e' ∨ e = 'E') → (m = [] ∨ m = ['-']) → fl.parse64 (t ++ e :: m) = none

end NS
