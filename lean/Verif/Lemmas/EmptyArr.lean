import Verif.Spec.EmptyArr
import Verif.Model.Json
/-! Without zero-length array types no empty array is visited. -/
namespace NS
variable {env : Env}

/-- The induction hypothesis. -/
def VisIH (env : Env) (v : Val) : Prop :=
  ∀ t : Ty, t.noEmptyArr = true → HasTy env t v → visitsEmptyArray env t v = false

theorem visAll {t : Ty} (ht : t.noEmptyArr = true) (vs : List Val) (ih : ∀ v ∈ vs, VisIH env v) (h : AllTy env t vs) :
    visitsEmptyAll env t vs = false := by
  induction vs with
  | nil => rfl
  | cons v vs ihl =>
    simp only [AllTy] at h
    simp only [visitsEmptyAll, ih v (by simp) t ht h.1, ihl (fun v hv => ih v (by simp [hv])) h.2, Bool.or_self]

theorem visEntries {k t : Ty} (hk : k.noEmptyArr = true) (ht : t.noEmptyArr = true) (vs : List Val)
    (ih : ∀ a b, Val.entry a b ∈ vs → VisIH env a ∧ VisIH env b) (h : EntriesTy env k t vs) :
    visitsEmptyEntries env k t vs = false := by
  induction vs with
  | nil => rfl
  | cons v vs ihl =>
    unfold EntriesTy at h
    split at h
    · rename_i e; cases e
    · rename_i e
      injection e with e1 e2
      subst e1; subst e2
      obtain ⟨i1, i2⟩ := ih _ _ (List.mem_cons_self ..)
      simp only [visitsEmptyEntries, i1 k hk h.1, i2 t ht h.2.1, ihl (fun a b hv => ih a b (by simp [hv])) h.2.2,
        Bool.or_self]
    · cases h

theorem visTys (ts : List Ty) (hts : ∀ t ∈ ts, t.noEmptyArr = true) (vs : List Val) (ih : ∀ v ∈ vs, VisIH env v)
    (h : TysTy env ts vs) : visitsEmptyTys env ts vs = false := by
  induction ts generalizing vs with
  | nil => simp [visitsEmptyTys]
  | cons t ts ihl =>
    cases vs with
    | nil => rfl
    | cons v vs =>
      simp only [TysTy] at h
      simp only [visitsEmptyTys, ih v (by simp) t (hts t (by simp)) h.1,
        ihl (fun t ht => hts t (by simp [ht])) vs (fun v hv => ih v (by simp [hv])) h.2, Bool.or_self]

theorem visFields (b : Bool) (fs : List Field) (hts : ∀ f ∈ fs, f.ty.noEmptyArr = true) (vs : List Val)
    (ih : ∀ v ∈ vs, VisIH env v) (h : FieldsTy env fs vs) : visitsEmptyFields env b fs vs = false := by
  induction fs generalizing vs with
  | nil => simp [visitsEmptyFields]
  | cons f fs ihl =>
    cases vs with
    | nil => rfl
    | cons v vs =>
      simp only [FieldsTy] at h
      simp only [visitsEmptyFields, ih v (by simp) f.ty (hts f (by simp)) h.1,
        ihl (fun t ht => hts t (by simp [ht])) vs (fun v hv => ih v (by simp [hv])) h.2, Bool.or_false, ite_self]

theorem noEmptyArr_visits (hE : NoEmptyArrays env) (v : Val) : VisIH env v := by
  induction hN : sizeOf v using Nat.strongRecOn generalizing v with
  | _ N IH =>
    subst hN
    intro t ht hT
    have ihs : ∀ vs : List Val, sizeOf vs < sizeOf v → ∀ u ∈ vs, VisIH env u := by
      intro vs hvs u hu
      have := List.sizeOf_lt_of_mem hu
      exact IH _ (by omega) u rfl
    have ihe : ∀ vs : List Val, sizeOf vs < sizeOf v → ∀ a b, Val.entry a b ∈ vs → VisIH env a ∧ VisIH env b := by
      intro vs hvs a b hu
      have := List.sizeOf_lt_of_mem hu
      simp at this
      exact ⟨IH _ (by omega) a rfl, IH _ (by omega) b rfl⟩
    unfold visitsEmptyArray
    split
    · simp only [HasTy] at hT; exact IH _ (by simp) _ rfl _ (by simpa [Ty.noEmptyArr] using ht) hT
    · simp only [HasTy] at hT; exact visAll (by simpa [Ty.noEmptyArr] using ht) _ (ihs _ (by simp)) hT.1
    · simp only [HasTy] at hT; exact visAll (by simpa [Ty.noEmptyArr] using ht) _ (ihs _ (by simp)) hT.1
    · simp only [HasTy] at hT; exact visAll (by simpa [Ty.noEmptyArr] using ht) _ (ihs _ (by simp)) hT.1
    · simp only [HasTy] at hT; exact visAll (by simpa [Ty.noEmptyArr] using ht) _ (ihs _ (by simp)) hT.1
    · simp only [HasTy] at hT
      simp [Ty.noEmptyArr] at ht
      rw [visAll ht.2 _ (ihs _ (by simp)) hT.1]
      rename_i vs
      cases vs with
      | nil => simp at hT; omega
      | cons => rfl
    · simp only [HasTy] at hT
      simp [Ty.noEmptyArr] at ht
      exact visTys _ (by simp [ht]) _ (ihs _ (by simp)) hT
    · simp only [HasTy] at hT
      simp [Ty.noEmptyArr] at ht
      exact visTys _ (by simp [ht]) _ (ihs _ (by simp)) hT
    · simp only [HasTy] at hT
      simp [Ty.noEmptyArr] at ht
      exact visTys _ (by simp [ht]) _ (ihs _ (by simp)) hT
    · simp only [HasTy] at hT
      simp [Ty.noEmptyArr] at ht
      exact visEntries ht.1 ht.2 _ (ihe _ (by simp)) hT.1
    · simp only [HasTy] at hT
      simp [Ty.noEmptyArr] at ht
      exact visEntries ht.1 ht.2 _ (ihe _ (by simp)) hT.1
    · simp only [HasTy] at hT; exact IH _ (by simp) _ rfl _ (by simpa [Ty.noEmptyArr] using ht) hT
    · simp only [HasTy] at hT
      split
      · rename_i heq
        simp only [heq] at hT
        exact visFields _ _ (fun f hf => hE.defs _ (List.mem_of_getElem? heq) _ (by simp [Def.tys]; exact ⟨f, hf, rfl⟩)) _ (ihs _ (by simp)) hT
      · rename_i heq
        simp only [heq] at hT
        exact visTys _ (fun t ht => hE.defs _ (List.mem_of_getElem? heq) _ (by simpa [Def.tys] using ht)) _ (ihs _ (by simp)) hT
      · rfl
    · simp only [HasTy] at hT
      split
      · rename_i heq
        simp only [heq] at hT
        split
        · rename_i heq2
          simp only [heq2] at hT
          refine visTys _ (fun t ht => hE.defs _ (List.mem_of_getElem? heq) _ ?_) _ (ihs _ (by simp; omega)) hT
          simp only [Def.tys, List.mem_flatMap]
          exact ⟨_, List.mem_of_getElem? heq2, ht⟩
        · rename_i heq2
          simp only [heq2] at hT
          refine visFields _ _ (fun f hf => hE.defs _ (List.mem_of_getElem? heq) _ ?_) _ (ihs _ (by simp; omega)) hT
          simp only [Def.tys, List.mem_flatMap]
          exact ⟨_, List.mem_of_getElem? heq2, List.mem_map.2 ⟨f, hf, rfl⟩⟩
        · rfl
      · rfl
    · simp only [HasTy] at hT
      split
      · rename_i heq
        simp only [heq] at hT
        exact IH _ (by simp; omega) _ rfl _ (hE.proxies _ (List.mem_of_getElem? heq)) hT.1
      · rfl
    · rfl

end NS
