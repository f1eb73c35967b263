import Verif.Spec.Skip
import Verif.Model.Ron
import Verif.Lemmas.SkipJson
/-! The RON text does not depend on skipped fields. -/
namespace NS
variable {env : Env} {fl : FloatOps}

/-- Same text, same panic. -/
def RSameSer (env : Env) (fl : FloatOps) (t : Ty) (v w : Val) : Prop :=
  serRon env fl t v = serRon env fl t w ∧ visitsEmptyArray env t v = visitsEmptyArray env t w

/-- The induction hypothesis for a component. -/
def RSerIH (env : Env) (fl : FloatOps) (v : Val) : Prop :=
  ∀ t w, SkipEq env false t v w → RSameSer env fl t v w

theorem rSkipAll_ser {t : Ty} (vs ws : List Val) (ih : ∀ v ∈ vs, RSerIH env fl v) (h : SkipEqAll env false t vs ws) :
    serRonAll env fl t vs = serRonAll env fl t ws ∧ visitsEmptyAll env t vs = visitsEmptyAll env t ws ∧
      vs.isEmpty = ws.isEmpty := by
  induction vs generalizing ws with
  | nil => cases ws with
    | nil => exact ⟨rfl, rfl, rfl⟩
    | cons => simp [SkipEqAll] at h
  | cons v vs ihl => cases ws with
    | nil => simp [SkipEqAll] at h
    | cons w ws =>
      simp only [SkipEqAll] at h
      have h1 := ih v (by simp) t w h.1
      have h2 := ihl ws (fun v hv => ih v (by simp [hv])) h.2
      exact ⟨by simp only [serRonAll, h1.1, h2.1], by simp only [visitsEmptyAll, h1.2, h2.2.1], rfl⟩

theorem rSkipEntries_ser {k t : Ty} (vs ws : List Val)
    (ih : ∀ a b, Val.entry a b ∈ vs → RSerIH env fl a ∧ RSerIH env fl b) (h : SkipEqEntries env false k t vs ws) :
    serRonEntries env fl k t vs = serRonEntries env fl k t ws ∧
      visitsEmptyEntries env k t vs = visitsEmptyEntries env k t ws := by
  induction vs generalizing ws with
  | nil => cases ws with
    | nil => exact ⟨rfl, rfl⟩
    | cons => simp [SkipEqEntries] at h
  | cons v vs ihl => cases ws with
    | nil => simp [SkipEqEntries] at h
    | cons w ws =>
      unfold SkipEqEntries at h
      split at h
      · rename_i h1 h2; cases h1
      · rename_i e1 e2
        injection e1 with e1 e1'; injection e2 with e2 e2'
        subst e1; subst e2; subst e1'; subst e2'
        obtain ⟨i1, i2⟩ := ih _ _ (List.mem_cons_self ..)
        have h1 := i1 k _ h.1
        have h2 := i2 t _ h.2.1
        have h3 := ihl _ (fun a b hv => ih a b (by simp [hv])) h.2.2
        exact ⟨by simp only [serRonEntries, h1.1, h2.1, h3.1], by simp only [visitsEmptyEntries, h1.2, h2.2, h3.2]⟩
      · cases h

theorem rSkipTys_ser (ts : List Ty) (vs ws : List Val) (ih : ∀ v ∈ vs, RSerIH env fl v)
    (h : SkipEqTys env false ts vs ws) :
    serRonTys env fl ts vs = serRonTys env fl ts ws ∧ visitsEmptyTys env ts vs = visitsEmptyTys env ts ws := by
  induction ts generalizing vs ws with
  | nil => exact ⟨by simp [serRonTys], by simp [visitsEmptyTys]⟩
  | cons t ts ihl =>
    match vs, ws with
    | v :: vs, w :: ws =>
      simp only [SkipEqTys] at h
      have h1 := ih v (by simp) t w h.1
      have h2 := ihl vs ws (fun v hv => ih v (by simp [hv])) h.2
      exact ⟨by simp only [serRonTys, h1.1, h2.1], by simp only [visitsEmptyTys, h1.2, h2.2]⟩
    | [], [] => exact ⟨rfl, rfl⟩
    | [], _ :: _ => simp [SkipEqTys] at h
    | _ :: _, [] => simp [SkipEqTys] at h

theorem rSkipFields_ser (fs : List Field) (vs ws : List Val) (ih : ∀ v ∈ vs, RSerIH env fl v)
    (h : SkipEqFields env false true fs vs ws) :
    serRonFields env fl true fs vs = serRonFields env fl true fs ws ∧
      visitsEmptyFields env true fs vs = visitsEmptyFields env true fs ws := by
  induction fs generalizing vs ws with
  | nil => exact ⟨by simp [serRonFields], by simp [visitsEmptyFields]⟩
  | cons f fs ihl =>
    match vs, ws with
    | v :: vs, w :: ws =>
      simp only [SkipEqFields] at h
      have h2 := ihl vs ws (fun v hv => ih v (by simp [hv])) h.2
      by_cases hs : f.skip = true
      · exact ⟨by simp only [serRonFields, hs, and_self, if_true, h2.1],
          by simp only [visitsEmptyFields, hs, h2.2, Bool.and_self, if_true]⟩
      · have h1' := h.1.resolve_left (fun h => hs h.2)
        have h1 := ih v (by simp) f.ty w h1'
        have h0 := h1'.isNone
        exact ⟨by simp only [serRonFields, h1.1, h2.1, h0], by simp only [visitsEmptyFields, h1.2, h2.2]⟩
    | [], [] => exact ⟨rfl, rfl⟩
    | [], _ :: _ => simp [SkipEqFields] at h
    | _ :: _, [] => simp [SkipEqFields] at h

theorem rSkipVarFields_ser (fs : List Field) (vs ws : List Val) (ih : ∀ v ∈ vs, RSerIH env fl v)
    (h : SkipEqFields env false false fs vs ws) :
    serRonFields env fl false fs vs = serRonFields env fl false fs ws ∧
      visitsEmptyFields env false fs vs = visitsEmptyFields env false fs ws := by
  induction fs generalizing vs ws with
  | nil => exact ⟨by simp [serRonFields], by simp [visitsEmptyFields]⟩
  | cons f fs ihl =>
    match vs, ws with
    | v :: vs, w :: ws =>
      simp only [SkipEqFields] at h
      have h2 := ihl vs ws (fun v hv => ih v (by simp [hv])) h.2
      have h1' := h.1.resolve_left (fun h => by simp at h)
      have h1 := ih v (by simp) f.ty w h1'
      have h0 := h1'.isNone
      exact ⟨by simp only [serRonFields, h1.1, h2.1, h0], by simp only [visitsEmptyFields, h1.2, h2.2]⟩
    | [], [] => exact ⟨rfl, rfl⟩
    | [], _ :: _ => simp [SkipEqFields] at h
    | _ :: _, [] => simp [SkipEqFields] at h

theorem rSkipEq_ser (v : Val) : RSerIH env fl v := by
  induction hN : sizeOf v using Nat.strongRecOn generalizing v with
  | _ N IH =>
    subst hN
    intro t w h
    have ihs : ∀ vs : List Val, sizeOf vs < sizeOf v → ∀ u ∈ vs, RSerIH env fl u := by
      intro vs hvs u hu
      have := List.sizeOf_lt_of_mem hu
      exact IH _ (by omega) u rfl
    have ihe : ∀ vs : List Val, sizeOf vs < sizeOf v → ∀ a b, Val.entry a b ∈ vs → RSerIH env fl a ∧ RSerIH env fl b := by
      intro vs hvs a b hu
      have := List.sizeOf_lt_of_mem hu
      simp at this
      exact ⟨IH _ (by omega) a rfl, IH _ (by omega) b rfl⟩
    unfold SkipEq at h
    split at h
    · have := IH _ (by simp) _ rfl _ _ h
      exact ⟨by simp only [serRon]; exact this.1, by simp only [visitsEmptyArray]; exact this.2⟩
    · have := rSkipAll_ser (fl := fl) _ _ (ihs _ (by simp)) h
      exact ⟨by simp only [serRon, this.1], by simp only [visitsEmptyArray, this.2.1]⟩
    · have := rSkipAll_ser (fl := fl) _ _ (ihs _ (by simp)) h
      exact ⟨by simp only [serRon, this.1], by simp only [visitsEmptyArray, this.2.1]⟩
    · have := rSkipAll_ser (fl := fl) _ _ (ihs _ (by simp)) h
      exact ⟨by simp only [serRon, this.1], by simp only [visitsEmptyArray, this.2.1]⟩
    · have := rSkipAll_ser (fl := fl) _ _ (ihs _ (by simp)) h
      exact ⟨by simp only [serRon, this.1], by simp only [visitsEmptyArray, this.2.1]⟩
    · have := rSkipAll_ser (fl := fl) _ _ (ihs _ (by simp)) h
      exact ⟨by simp only [serRon, this.1], by simp only [visitsEmptyArray, this.2.1, this.2.2]⟩
    · have := rSkipTys_ser (fl := fl) _ _ _ (ihs _ (by simp)) h
      exact ⟨by simp only [serRon, this.1], by simp only [visitsEmptyArray, this.2]⟩
    · have := rSkipTys_ser (fl := fl) _ _ _ (ihs _ (by simp)) h
      exact ⟨by simp only [serRon, this.1], by simp only [visitsEmptyArray, this.2]⟩
    · have := rSkipTys_ser (fl := fl) _ _ _ (ihs _ (by simp)) h
      exact ⟨by simp only [serRon, this.1], by simp only [visitsEmptyArray, this.2]⟩
    · have := rSkipEntries_ser (fl := fl) _ _ (ihe _ (by simp)) h
      exact ⟨by simp only [serRon, this.1], by simp only [visitsEmptyArray, this.2]⟩
    · have := rSkipEntries_ser (fl := fl) _ _ (ihe _ (by simp)) h
      exact ⟨by simp only [serRon, this.1], by simp only [visitsEmptyArray, this.2]⟩
    · have := IH _ (by simp) _ rfl _ _ h
      exact ⟨by simp only [serRon]; exact this.1, by simp only [visitsEmptyArray]; exact this.2⟩
    · split at h
      · rename_i heq
        have := rSkipFields_ser (fl := fl) _ _ _ (ihs _ (by simp)) h
        exact ⟨by simp only [serRon, heq, this.1], by simp only [visitsEmptyArray, heq, this.2]⟩
      · rename_i heq
        have := rSkipTys_ser (fl := fl) _ _ _ (ihs _ (by simp)) h
        exact ⟨by simp only [serRon, heq, this.1], by simp only [visitsEmptyArray, heq, this.2]⟩
      · cases h
    · obtain ⟨rfl, h⟩ := h
      split at h
      · rename_i heq
        split at h
        · obtain ⟨rfl, rfl⟩ := h
          exact ⟨rfl, rfl⟩
        · rename_i heq2
          have := rSkipTys_ser (fl := fl) _ _ _ (ihs _ (by simp; omega)) h
          exact ⟨by simp only [serRon, heq, heq2, this.1], by simp only [visitsEmptyArray, heq, heq2, this.2]⟩
        · rename_i heq2
          have := rSkipVarFields_ser (fl := fl) _ _ _ (ihs _ (by simp; omega)) h
          exact ⟨by simp only [serRon, heq, heq2, this.1], by simp only [visitsEmptyArray, heq, heq2, this.2]⟩
        · cases h
      · cases h
    · split at h
      · rename_i heq
        have := IH _ (by simp; omega) _ rfl _ _ h
        exact ⟨by simp only [serRon, heq]; exact this.1, by simp only [visitsEmptyArray, heq]; exact this.2⟩
      · cases h
    · rw [h]
      exact ⟨rfl, rfl⟩

theorem rSkipEq_serialize {t : Ty} {v w : Val} (h : SkipEq env false t v w) (chk : Bool) :
    serializeRon env fl chk t v = serializeRon env fl chk t w := by
  have := rSkipEq_ser (fl := fl) v t w h
  simp only [serializeRon, this.1, this.2]

end NS
