import Verif.Lemmas.JsonExactT
import Verif.Spec.RonSafe
import Verif.Model.Ron
/-! The condition on `Some(v)` in terms of the RON text of `v`. -/
namespace NS
variable {env : Env} {fl : FloatOps}

/-- A text that starts with the word `None`. -/
def NoneLike (s : List Char) : Prop := s = noneText ∨ ∃ r, s = noneText ++ '(' :: r

/-- `RonNodeOk` with the text of `v` in place of its form. -/
def RonNodeOkT (env : Env) (fl : FloatOps) (t : Ty) (w : Val) : Prop :=
  (∀ k, t = .int k → k.textual = true) ∧
  (∀ x, w = .f64 x → finite64 x) ∧ (∀ x, w = .f32 x → finite32 x) ∧
  (∀ s n, w = .time s n → 0 ≤ s) ∧
  (∀ t' w', t = .option t' → w = .some w' → ¬ NoneLike (serRon env fl t' w')) ∧
  (∀ i, t ≠ .proxied i)

/-- See `RonNodeOkT`. -/
def RonExactT (env : Env) (fl : FloatOps) (t : Ty) (v : Val) : Prop :=
  Holds env (RonNodeOkT env fl) Field.absentValue false t v

theorem NoneLike.head {s : List Char} (h : NoneLike s) : ∃ r, s = 'N' :: 'o' :: r := by
  rcases h with rfl | ⟨r, rfl⟩
  · exact ⟨_, rfl⟩
  · exact ⟨_, rfl⟩

theorem not_idCont_paren : ¬ IdCont '(' := by
  simp only [IdCont, IdStart]; decide

theorem word_paren {nm y : List Char} (hn : RonName nm) (h : NoneLike (nm ++ '(' :: y)) : nm = ['N', 'o', 'n', 'e'] := by
  obtain ⟨c, r, rfl, _, hr⟩ := hn.1
  have key : ∀ (a : List Char), (∀ d ∈ a, d ≠ '(') → ∀ (b : List Char), (∀ d ∈ b, d ≠ '(') → ∀ x z,
      a ++ '(' :: x = b ++ '(' :: z → a = b := by
    intro a ha
    induction a with
    | nil =>
      intro b hb x z h
      cases b with
      | nil => rfl
      | cons d b => simp at h; exact absurd h.1.symm (hb d (by simp))
    | cons d a iha =>
      intro b hb x z h
      cases b with
      | nil => simp at h; exact absurd h.1 (ha d (by simp))
      | cons e b =>
        simp at h
        rw [h.1, iha (fun d hd => ha d (by simp [hd])) b (fun d hd => hb d (by simp [hd])) x z h.2]
  have hp : ∀ d ∈ r, d ≠ '(' := fun d hd e => not_idCont_paren (e ▸ hr d hd)
  rcases h with h | ⟨z, h⟩
  · exfalso
    have : '(' ∈ noneText := by rw [← h]; simp
    revert this; decide
  · by_cases hc : c = '('
    · subst hc; simp [noneText] at h
    · exact key (c :: r) (by intro d hd; exact (List.mem_cons.1 hd).elim (fun e => e ▸ hc) (hp d)) noneText
        (by decide) _ _ h

/-- Only values of `None` form have a text that starts with `None`. -/
theorem noneForm_of_text (hfl : FloatLaws fl) (hE : RonEnvOk env) (v : Val) :
    ∀ t, NoneLike (serRon env fl t v) → NoneForm env t v := by
  induction v using Val.sizeInd with
  | h v ih =>
  intro t h
  obtain ⟨r0, hh⟩ := h.head
  unfold serRon at h hh
  split at h
  case h_2 b => cases b <;> simp at hh
  case h_3 i => obtain ⟨c, r, hc, _, h1⟩ := showInt_start i; simp only at hh; rw [hc] at hh; simp_all
  case h_4 x => rcases show32_text hfl x with ⟨c, r, hc, _, h1⟩ | hm
                · simp only at hh; rw [hc] at hh; simp_all
                · simp only at hh; rw [hh] at hm; simp at hm
  case h_5 x => rcases show64_text hfl x with ⟨c, r, hc, _, h1⟩ | hm
                · simp only at hh; rw [hc] at hh; simp_all
                · simp only at hh; rw [hh] at hm; simp at hm
  case h_6 => simp [ronStr] at hh
  case h_7 => simp [durText] at hh
  case h_8 s n =>
    by_cases hs : 0 ≤ s
    · simp [durText, hs] at hh
    · exact .past (by omega)
  case h_9 => exact .none
  case h_10 t' w => exact .some (ih w (by simp) _ h)
  case h_21 t' w => exact .box (ih w (by simp) _ h)
  case h_22 i vs =>
    exfalso
    simp only at hh
    split at hh <;> simp at hh
  case h_23 i j vs =>
    split at h
    · rename_i vars hd
      split at h
      · rename_i nm rn hj
        refine .variant hd hj ?_
        rcases h with h | ⟨r, h⟩
        · exact h
        · exfalso
          obtain ⟨hn, _⟩ := hE i _ hd
          obtain ⟨⟨c, q, hq, _, hr⟩, _⟩ := hn _ (List.mem_of_getElem? hj)
          simp only at hq h
          rw [hq] at h
          simp [noneText] at h
          have hm : '(' ∈ q := by rw [h.2]; simp
          exact not_idCont_paren (hr _ hm)
      · rename_i nm rn ts hj
        exact .variant hd hj (word_paren ((hE i _ hd).1 _ (List.mem_of_getElem? hj)) h)
      · rename_i nm rn fs hj
        exact .variant hd hj (word_paren ((hE i _ hd).1 _ (List.mem_of_getElem? hj)) h)
      · obtain ⟨r, h⟩ := h.head; simp at h
    · obtain ⟨r, h⟩ := h.head; simp at h
  case h_24 i o p =>
    split at h
    · rename_i px hd
      exact .proxied hd (ih p (by simp; omega) _ h)
    · obtain ⟨r, h⟩ := h.head; simp at h
  all_goals simp at hh

theorem RonExact.text (hfl : FloatLaws fl) (hE : RonEnvOk env) {t : Ty} {v : Val} (h : RonExact env t v) :
    RonExactT env fl t v := by
  refine Holds.mono ?_ v t h
  intro t v ⟨h1, h2, h3, h4, h5, h6⟩
  exact ⟨h1, h2, h3, h4, fun t' w' e1 e2 e3 => h5 t' w' e1 e2 (noneForm_of_text hfl hE w' t' e3), h6⟩

end NS
