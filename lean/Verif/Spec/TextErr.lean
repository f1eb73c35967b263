import Verif.Spec.Basic
import Verif.Spec.Text
/-!
# Errors of the text readers and malformed `\u` escapes
-/
namespace NS

/-- The reader returns an `Err` with the given reason. -/
def RejectsWith (f : Nat → Out PErr PSt Val) (why : Reason) : Prop :=
  ∃ n₀, ∀ n, n₀ ≤ n → ∃ line col s, f n = .err ⟨line, col, why⟩ s

theorem RejectsWith.rejects {f why} (h : RejectsWith f why) : Rejects f := by
  obtain ⟨n, h⟩ := h
  refine ⟨n, fun m hm => ?_⟩
  obtain ⟨l, c, s, e⟩ := h m hm
  exact ⟨_, _, e⟩

/-- `rest`, the text after `\u`, is not the rest of a legal escape: there are no four hexadecimal
digits; or they are a trail surrogate; or they are a lead surrogate that is not followed by `\u` and
a trail surrogate. -/
def BadUnicode (rest : List Char) : Prop :=
  (¬ ∃ h v t, rest = h ++ t ∧ Hex4 h v) ∨
  (∃ h v t, rest = h ++ t ∧ Hex4 h v ∧ 0xDC00 ≤ v ∧ v < 0xE000) ∨
  (∃ h v t, rest = h ++ t ∧ Hex4 h v ∧ 0xD800 ≤ v ∧ v < 0xDC00 ∧
    ¬ ∃ l w t', t = '\\' :: 'u' :: (l ++ t') ∧ Hex4 l w ∧ 0xDC00 ≤ w ∧ w < 0xE000)

end NS
