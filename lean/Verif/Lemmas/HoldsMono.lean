import Verif.Spec.Basic
import Verif.Lemmas.Monad
/-! `Holds` is monotone. -/
namespace NS
variable {env : Env} {P Q : Ty → Val → Prop} {dflt : Field → Val} {si : Bool}

theorem HoldsAll.mono {t : Ty} (vs : List Val) (ih : ∀ v ∈ vs, ∀ t, Holds env P dflt si t v → Holds env Q dflt si t v)
    (h : HoldsAll env P dflt si t vs) : HoldsAll env Q dflt si t vs := by
  induction vs with
  | nil => trivial
  | cons v vs ih2 => exact ⟨ih v (by simp) _ h.1, ih2 (fun v hv => ih v (by simp [hv])) h.2⟩

theorem HoldsTys.mono (ts : List Ty) (vs : List Val)
    (ih : ∀ v ∈ vs, ∀ t, Holds env P dflt si t v → Holds env Q dflt si t v)
    (h : HoldsTys env P dflt si ts vs) : HoldsTys env Q dflt si ts vs := by
  induction ts generalizing vs with
  | nil => simp [HoldsTys]
  | cons t ts ih2 =>
    cases vs with
    | nil => simp [HoldsTys]
    | cons v vs => exact ⟨ih v (by simp) _ h.1, ih2 vs (fun v hv => ih v (by simp [hv])) h.2⟩

theorem HoldsFields.mono {us : Bool} (fs : List Field) (vs : List Val)
    (ih : ∀ v ∈ vs, ∀ t, Holds env P dflt si t v → Holds env Q dflt si t v)
    (h : HoldsFields env P dflt si us fs vs) : HoldsFields env Q dflt si us fs vs := by
  induction fs generalizing vs with
  | nil => simp [HoldsFields]
  | cons f fs ih2 =>
    cases vs with
    | nil => simp [HoldsFields]
    | cons v vs =>
      simp only [HoldsFields] at h ⊢
      refine ⟨?_, ih2 vs (fun v hv => ih v (by simp [hv])) h.2⟩
      split
      · rename_i hc; rw [if_pos hc] at h; exact h.1
      · rename_i hc; rw [if_neg hc] at h; exact ih v (by simp) _ h.1

theorem HoldsEntries.mono {k t : Ty} (vs : List Val)
    (ih : ∀ a b, .entry a b ∈ vs → (∀ t, Holds env P dflt si t a → Holds env Q dflt si t a) ∧
      (∀ t, Holds env P dflt si t b → Holds env Q dflt si t b))
    (h : HoldsEntries env P dflt si k t vs) : HoldsEntries env Q dflt si k t vs := by
  induction vs with
  | nil => trivial
  | cons v vs ih2 =>
    cases v with
    | entry a b =>
      have := ih a b (by simp)
      exact ⟨this.1 _ h.1, this.2 _ h.2.1, ih2 (fun a b hm => ih a b (by simp [hm])) h.2.2⟩
    | _ => trivial

theorem Holds.mono (hPQ : ∀ t v, P t v → Q t v) (v : Val) :
    ∀ t, Holds env P dflt si t v → Holds env Q dflt si t v := by
  induction v using Val.sizeInd with
  | h v ih =>
  have lt {vs : List Val} {w : Val} (h : w ∈ vs) : sizeOf w < sizeOf vs := List.sizeOf_lt_of_mem h
  intro t h
  unfold Holds at h ⊢
  split at h
  case h_1 t' w => exact ⟨hPQ _ _ h.1, ih w (by simp) _ h.2⟩
  case h_2 t' vs => exact ⟨hPQ _ _ h.1, HoldsAll.mono vs (fun w hw => ih w (by have := lt hw; simp; omega)) h.2⟩
  case h_3 t' vs => exact ⟨hPQ _ _ h.1, HoldsAll.mono vs (fun w hw => ih w (by have := lt hw; simp; omega)) h.2⟩
  case h_4 t' vs => exact ⟨hPQ _ _ h.1, HoldsAll.mono vs (fun w hw => ih w (by have := lt hw; simp; omega)) h.2⟩
  case h_5 t' vs => exact ⟨hPQ _ _ h.1, HoldsAll.mono vs (fun w hw => ih w (by have := lt hw; simp; omega)) h.2⟩
  case h_6 t' n vs => exact ⟨hPQ _ _ h.1, HoldsAll.mono vs (fun w hw => ih w (by have := lt hw; simp; omega)) h.2⟩
  case h_7 vs => exact ⟨hPQ _ _ h.1, HoldsTys.mono _ vs (fun w hw => ih w (by have := lt hw; simp; omega)) h.2⟩
  case h_8 vs => exact ⟨hPQ _ _ h.1, HoldsTys.mono _ vs (fun w hw => ih w (by have := lt hw; simp; omega)) h.2⟩
  case h_9 vs => exact ⟨hPQ _ _ h.1, HoldsTys.mono _ vs (fun w hw => ih w (by have := lt hw; simp; omega)) h.2⟩
  case h_10 vs =>
    exact ⟨hPQ _ _ h.1, HoldsEntries.mono vs (fun a b hw => ⟨ih a (by have := lt hw; simp at this ⊢; omega),
      ih b (by have := lt hw; simp at this ⊢; omega)⟩) h.2⟩
  case h_11 vs =>
    exact ⟨hPQ _ _ h.1, HoldsEntries.mono vs (fun a b hw => ⟨ih a (by have := lt hw; simp at this ⊢; omega),
      ih b (by have := lt hw; simp at this ⊢; omega)⟩) h.2⟩
  case h_12 t' w => exact ⟨hPQ _ _ h.1, ih w (by simp) _ h.2⟩
  case h_13 i vs =>
    refine ⟨hPQ _ _ h.1, ?_⟩
    have h2 := h.2
    split at h2
    · exact HoldsFields.mono _ vs (fun w hw => ih w (by have := lt hw; simp; omega)) h2
    · exact HoldsTys.mono _ vs (fun w hw => ih w (by have := lt hw; simp; omega)) h2
    · trivial
  case h_14 i j vs =>
    refine ⟨hPQ _ _ h.1, ?_⟩
    have h2 := h.2
    split at h2
    · split at h2
      · exact HoldsTys.mono _ vs (fun w hw => ih w (by have := lt hw; simp; omega)) h2
      · exact HoldsFields.mono _ vs (fun w hw => ih w (by have := lt hw; simp; omega)) h2
      · trivial
    · trivial
  case h_15 i o p =>
    refine ⟨hPQ _ _ h.1, ?_⟩
    have h2 := h.2
    split at h2
    · exact ih p (by simp; omega) _ h2
    · trivial
  case h_16 => exact hPQ _ _ h

end NS
