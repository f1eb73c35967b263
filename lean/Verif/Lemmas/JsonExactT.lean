import Verif.Lemmas.HoldsMono
import Verif.Lemmas.JsonText
import Verif.Spec.JsonSafe
import Verif.Spec.Float
import Verif.Model.Json
/-! The condition on `Some(v)` in terms of the text of `v`. -/
namespace NS
variable {env : Env} {fl : FloatOps}

/-- `JsonNodeOk` with the text of `v` in place of its form. -/
def JsonNodeOkT (env : Env) (fl : FloatOps) (t : Ty) (w : Val) : Prop :=
  (∀ k, t = .int k → k.textual = true) ∧
  (∀ x, w = .f64 x → finite64 x) ∧ (∀ x, w = .f32 x → finite32 x) ∧
  (∀ s n, w = .time s n → 0 ≤ s) ∧
  (∀ t' w', t = .option t' → w = .some w' → serJson env fl t' w' ≠ ['n', 'u', 'l', 'l'])

/-- See `JsonNodeOkT`. -/
def JsonExactT (env : Env) (fl : FloatOps) (t : Ty) (v : Val) : Prop :=
  Holds env (JsonNodeOkT env fl) Field.absent false t v

theorem showNat_start (n : Nat) : ∃ c r, showNat n = c :: r ∧ c ≠ 'n' ∧ c ≠ 'N' := by
  cases h : showNat n with
  | nil => exact absurd h (showNat_ne_nil n)
  | cons c r =>
    have hd := showNat_dig (n := n) (c := c) (by simp [h])
    refine ⟨c, r, rfl, ?_, ?_⟩ <;> (rintro rfl; revert hd; decide)

theorem showInt_start (i : Int) : ∃ c r, showInt i = c :: r ∧ c ≠ 'n' ∧ c ≠ 'N' := by
  unfold showInt
  split
  · exact ⟨_, _, rfl, by decide, by decide⟩
  · exact showNat_start _

theorem floatLit_start {s : List Char} (h : FloatLit s) : ∃ c r, s = c :: r ∧ c ≠ 'n' ∧ c ≠ 'N' := by
  obtain ⟨sg, ip, fr, ex, rfl, h1, h2, h3, _⟩ := h
  rcases h1 with rfl | rfl
  · cases ip with
    | nil => exact absurd rfl h2
    | cons c r =>
      have := h3 c (by simp)
      refine ⟨c, _, rfl, ?_, ?_⟩ <;> (rintro rfl; revert this; decide)
  · exact ⟨_, _, rfl, by decide, by decide⟩

theorem show64_text (hfl : FloatLaws fl) (x) : (∃ c r, fl.show64 x = c :: r ∧ c ≠ 'n' ∧ c ≠ 'N') ∨
    fl.show64 x ∈ [['N', 'a', 'N'], ['i', 'n', 'f'], ['-', 'i', 'n', 'f']] := by
  by_cases hx : finite64 x
  · exact .inl (floatLit_start (hfl.lit64 x hx))
  · exact .inr (hfl.nonfinite64 x hx)

theorem show32_text (hfl : FloatLaws fl) (x) : (∃ c r, fl.show32 x = c :: r ∧ c ≠ 'n' ∧ c ≠ 'N') ∨
    fl.show32 x ∈ [['N', 'a', 'N'], ['i', 'n', 'f'], ['-', 'i', 'n', 'f']] := by
  by_cases hx : finite32 x
  · exact .inl (floatLit_start (hfl.lit32 x hx))
  · exact .inr (hfl.nonfinite32 x hx)

/-- Only values of null form have the text `null`. -/
theorem nullForm_of_text (hfl : FloatLaws fl) (v : Val) :
    ∀ t, serJson env fl t v = ['n', 'u', 'l', 'l'] → NullForm env t v := by
  induction v using Val.sizeInd with
  | h v ih =>
  intro t h
  unfold serJson at h
  split at h
  case h_1 => exact .unit
  case h_2 b => cases b <;> simp at h
  case h_3 i => obtain ⟨c, r, hc, h1, _⟩ := showInt_start i; rw [hc] at h; simp_all
  case h_4 x => rcases show32_text hfl x with ⟨c, r, hc, h1, _⟩ | hm
                · rw [hc] at h; simp_all
                · rw [h] at hm; simp at hm
  case h_5 x => rcases show64_text hfl x with ⟨c, r, hc, h1, _⟩ | hm
                · rw [hc] at h; simp_all
                · rw [h] at hm; simp at hm
  case h_6 => simp [jsonStr] at h
  case h_7 => simp [durText] at h
  case h_8 s n =>
    split at h
    · simp [durText] at h
    · exact .past (by omega)
  case h_9 => exact .none
  case h_10 t' w => exact .some (ih w (by simp) _ h)
  case h_21 t' w => exact .box (ih w (by simp) _ h)
  case h_22 i vs =>
    split at h
    · simp at h
    · rename_i ts tr hd
      split at h
      · simp at h
      · split at h
        · rename_i hc
          obtain ⟨t, rfl⟩ := List.length_eq_one_iff.1 hc.2
          cases vs with
          | nil => simp [serJsonTys, joinSep] at h
          | cons w ws =>
            simp only [serJsonTys, joinSep] at h
            exact .transparent (hc.1 ▸ hd) (ih w (by simp; omega) _ h)
        · simp at h
    · simp at h
  case h_23 i j vs =>
    split at h
    · split at h <;> simp [jsonLabel] at h
    · simp at h
  case h_24 i o p =>
    split at h
    · rename_i px hd
      exact .proxied hd (ih p (by simp; omega) _ h)
    · simp at h
  all_goals simp at h

theorem JsonExact.text (hfl : FloatLaws fl) {t : Ty} {v : Val} (h : JsonExact env t v) : JsonExactT env fl t v := by
  refine Holds.mono ?_ v t h
  intro t v ⟨h1, h2, h3, h4, h5⟩
  exact ⟨h1, h2, h3, h4, fun t' w' e1 e2 e3 => h5 t' w' e1 e2 (nullForm_of_text hfl w' t' e3)⟩

theorem variant_isUnit_iff {v w : Variant} : v.isUnit = w.isUnit ↔ (v.shape = .unit ↔ w.shape = .unit) := by
  unfold Variant.isUnit
  cases v.shape <;> cases w.shape <;> simp

end NS
