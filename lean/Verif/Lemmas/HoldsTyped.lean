import Verif.Lemmas.HoldsMono
import Verif.Spec.RonSafe
import Verif.Spec.JsonSafe
/-! In a value of the type, every component that `Holds` visits is a value of its type. -/
namespace NS
variable {env : Env} {P : Ty → Val → Prop} {dflt : Field → Val} {si : Bool}

abbrev TyToo (env : Env) (P : Ty → Val → Prop) (t : Ty) (v : Val) : Prop := P t v ∧ HasTy env t v

theorem HoldsAll.typed {t : Ty} (vs : List Val)
    (ih : ∀ v ∈ vs, ∀ t, HasTy env t v → Holds env P dflt si t v → Holds env (TyToo env P) dflt si t v)
    (hT : AllTy env t vs) (h : HoldsAll env P dflt si t vs) : HoldsAll env (TyToo env P) dflt si t vs := by
  induction vs with
  | nil => trivial
  | cons v vs ih2 => exact ⟨ih v (by simp) _ hT.1 h.1, ih2 (fun v hv => ih v (by simp [hv])) hT.2 h.2⟩

theorem HoldsTys.typed (ts : List Ty) (vs : List Val)
    (ih : ∀ v ∈ vs, ∀ t, HasTy env t v → Holds env P dflt si t v → Holds env (TyToo env P) dflt si t v)
    (hT : TysTy env ts vs) (h : HoldsTys env P dflt si ts vs) : HoldsTys env (TyToo env P) dflt si ts vs := by
  induction ts generalizing vs with
  | nil => simp [HoldsTys]
  | cons t ts ih2 =>
    cases vs with
    | nil => simp [HoldsTys]
    | cons v vs => exact ⟨ih v (by simp) _ hT.1 h.1, ih2 vs (fun v hv => ih v (by simp [hv])) hT.2 h.2⟩

theorem HoldsFields.typed {us : Bool} (fs : List Field) (vs : List Val)
    (ih : ∀ v ∈ vs, ∀ t, HasTy env t v → Holds env P dflt si t v → Holds env (TyToo env P) dflt si t v)
    (hT : FieldsTy env fs vs) (h : HoldsFields env P dflt si us fs vs) : HoldsFields env (TyToo env P) dflt si us fs vs := by
  induction fs generalizing vs with
  | nil => simp [HoldsFields]
  | cons f fs ih2 =>
    cases vs with
    | nil => simp [HoldsFields]
    | cons v vs =>
      simp only [HoldsFields] at h ⊢
      refine ⟨?_, ih2 vs (fun v hv => ih v (by simp [hv])) hT.2 h.2⟩
      split
      · rename_i hc; rw [if_pos hc] at h; exact h.1
      · rename_i hc; rw [if_neg hc] at h; exact ih v (by simp) _ hT.1 h.1

theorem HoldsEntries.typed {k t : Ty} (vs : List Val)
    (ih : ∀ a b, .entry a b ∈ vs → (∀ t, HasTy env t a → Holds env P dflt si t a → Holds env (TyToo env P) dflt si t a) ∧
      (∀ t, HasTy env t b → Holds env P dflt si t b → Holds env (TyToo env P) dflt si t b))
    (hT : EntriesTy env k t vs) (h : HoldsEntries env P dflt si k t vs) : HoldsEntries env (TyToo env P) dflt si k t vs := by
  induction vs with
  | nil => trivial
  | cons v vs ih2 =>
    cases v with
    | entry a b =>
      have := ih a b (by simp)
      exact ⟨this.1 _ hT.1 h.1, this.2 _ hT.2.1 h.2.1, ih2 (fun a b hm => ih a b (by simp [hm])) hT.2.2 h.2.2⟩
    | _ => trivial

theorem Holds.typed (v : Val) :
    ∀ t, HasTy env t v → Holds env P dflt si t v → Holds env (TyToo env P) dflt si t v := by
  induction v using Val.sizeInd with
  | h v ih =>
  have lt {vs : List Val} {w : Val} (h : w ∈ vs) : sizeOf w < sizeOf vs := List.sizeOf_lt_of_mem h
  intro t hT h
  have hT0 := hT
  unfold Holds at h ⊢
  unfold HasTy at hT
  split at h
  case h_1 t' w => exact ⟨⟨h.1, hT0⟩, ih w (by simp) _ hT h.2⟩
  case h_2 t' vs => exact ⟨⟨h.1, hT0⟩, HoldsAll.typed vs (fun w hw => ih w (by have := lt hw; simp; omega)) hT.1 h.2⟩
  case h_3 t' vs => exact ⟨⟨h.1, hT0⟩, HoldsAll.typed vs (fun w hw => ih w (by have := lt hw; simp; omega)) hT.1 h.2⟩
  case h_4 t' vs => exact ⟨⟨h.1, hT0⟩, HoldsAll.typed vs (fun w hw => ih w (by have := lt hw; simp; omega)) hT.1 h.2⟩
  case h_5 t' vs => exact ⟨⟨h.1, hT0⟩, HoldsAll.typed vs (fun w hw => ih w (by have := lt hw; simp; omega)) hT.1 h.2⟩
  case h_6 t' n vs => exact ⟨⟨h.1, hT0⟩, HoldsAll.typed vs (fun w hw => ih w (by have := lt hw; simp; omega)) hT.1 h.2⟩
  case h_7 vs => exact ⟨⟨h.1, hT0⟩, HoldsTys.typed _ vs (fun w hw => ih w (by have := lt hw; simp; omega)) hT h.2⟩
  case h_8 vs => exact ⟨⟨h.1, hT0⟩, HoldsTys.typed _ vs (fun w hw => ih w (by have := lt hw; simp; omega)) hT h.2⟩
  case h_9 vs => exact ⟨⟨h.1, hT0⟩, HoldsTys.typed _ vs (fun w hw => ih w (by have := lt hw; simp; omega)) hT h.2⟩
  case h_10 vs =>
    exact ⟨⟨h.1, hT0⟩, HoldsEntries.typed vs (fun a b hw => ⟨ih a (by have := lt hw; simp at this ⊢; omega),
      ih b (by have := lt hw; simp at this ⊢; omega)⟩) hT.1 h.2⟩
  case h_11 vs =>
    exact ⟨⟨h.1, hT0⟩, HoldsEntries.typed vs (fun a b hw => ⟨ih a (by have := lt hw; simp at this ⊢; omega),
      ih b (by have := lt hw; simp at this ⊢; omega)⟩) hT.1 h.2⟩
  case h_12 t' w => exact ⟨⟨h.1, hT0⟩, ih w (by simp) _ hT h.2⟩
  case h_13 i vs =>
    refine ⟨⟨h.1, hT0⟩, ?_⟩
    have h2 := h.2
    split at h2
    · rename_i hd; simp only [hd] at hT
      exact HoldsFields.typed _ vs (fun w hw => ih w (by have := lt hw; simp; omega)) hT h2
    · rename_i hd; simp only [hd] at hT
      exact HoldsTys.typed _ vs (fun w hw => ih w (by have := lt hw; simp; omega)) hT h2
    · trivial
  case h_14 i j vs =>
    refine ⟨⟨h.1, hT0⟩, ?_⟩
    have h2 := h.2
    split at h2
    · rename_i hd; simp only [hd] at hT
      split at h2
      · rename_i hv; simp only [hv] at hT
        exact HoldsTys.typed _ vs (fun w hw => ih w (by have := lt hw; simp; omega)) hT h2
      · rename_i hv; simp only [hv] at hT
        exact HoldsFields.typed _ vs (fun w hw => ih w (by have := lt hw; simp; omega)) hT h2
      · trivial
    · trivial
  case h_15 i o p =>
    refine ⟨⟨h.1, hT0⟩, ?_⟩
    have h2 := h.2
    split at h2
    · rename_i hd; simp only [hd] at hT
      exact ih p (by simp; omega) _ hT.1 h2
    · trivial
  case h_16 => exact ⟨h, hT0⟩

/-- Without variants called `None`, what RON writes as `None` JSON writes as `null`. -/
theorem noneForm_null (hN : ∀ (i : Nat) vars, env.defs[i]? = some (.enum vars) → ∀ v ∈ vars, v.name ≠ ['N', 'o', 'n', 'e'])
    {t : Ty} {v : Val} (h : NoneForm env t v) : NullForm env t v := by
  induction h with
  | none => exact .none
  | past h => exact .past h
  | variant hd hv he => exact absurd he (hN _ _ hd _ (List.mem_of_getElem? hv))
  | some _ ih => exact .some ih
  | box _ ih => exact .box ih
  | proxied h _ ih => exact .proxied h ih

/-- What JSON represents exactly, RON does too, in a program without proxies and variants called `None`. -/
theorem JsonExact.ron (hp : env.proxies = [])
    (hN : ∀ (i : Nat) vars, env.defs[i]? = some (.enum vars) → ∀ v ∈ vars, v.name ≠ ['N', 'o', 'n', 'e'])
    {t : Ty} {v : Val} (hT : HasTy env t v) (h : JsonExact env t v) : RonExact env t v := by
  have h' := Holds.typed v t hT h
  refine Holds.mono (Q := RonNodeOk env) (fun t v h => ?_) v t h'
  refine ⟨h.1.1, h.1.2.1, h.1.2.2.1, h.1.2.2.2.1, fun t' w' e1 e2 hn => h.1.2.2.2.2 t' w' e1 e2 (noneForm_null hN hn), ?_⟩
  rintro i rfl
  have h2 := h.2
  cases v <;> simp [HasTy, hp] at h2

end NS
