import Verif.Lemmas.Monad
import Verif.Lemmas.GenRead
import Verif.Model.GenDe

/-!
# Running generated readers: lists of initialisers, literals, calls
-/

namespace NS

instance {ε σ : Type} : LawfulMonad (M ε σ) :=
  LawfulMonad.mk' (M ε σ)
    (id_map := fun x => by
      funext s
      show (x >>= fun a => pure a) s = x s
      rw [M.bind_def]; cases x s <;> rfl)
    (pure_bind := fun _ _ => rfl)
    (bind_assoc := fun x f g => by
      funext s
      rw [M.bind_def, M.bind_def, M.bind_def]; cases x s <;> rfl)

end NS

namespace NS.Derive
open NS

variable {ε σ : Type}

/-- One after the other. -/
def eachM {β γ : Type} (g : β → M ε σ γ) : List β → M ε σ (List γ)
  | [] => pure []
  | b :: bs => do
    let v ← g b
    let vs ← eachM g bs
    pure (v :: vs)

theorem eachM_len {β γ δ : Type} (g : β → M ε σ γ) (k k' : List γ → M ε σ δ) : ∀ (l : List β),
    (∀ vs, vs.length = l.length → k vs = k' vs) → (eachM g l >>= k) = (eachM g l >>= k') := by
  intro l
  induction l generalizing k k' with
  | nil => intro h; exact h [] rfl
  | cons b bs ih =>
    intro h
    simp only [eachM, bind_assoc, pure_bind]
    congr 1
    funext v
    exact ih _ _ fun vs hl => h (v :: vs) (by simp [hl])

theorem eachM_congr {β γ : Type} {g g' : β → M ε σ γ} : ∀ (l : List β), (∀ b ∈ l, g b = g' b) → eachM g l = eachM g' l := by
  intro l
  induction l with
  | nil => intro _; rfl
  | cons b bs ih =>
    intro h
    rw [eachM, eachM, h b (List.mem_cons_self ..), ih fun c hc => h c (List.mem_cons_of_mem _ hc)]

theorem eachM_map {β γ δ : Type} (g : γ → M ε σ δ) (f : β → γ) : ∀ (l : List β), eachM g (l.map f) = eachM (fun b => g (f b)) l := by
  intro l
  induction l with
  | nil => rfl
  | cons b bs ih => rw [List.map_cons, eachM, eachM, ih]

/-- Without the elements that do nothing. -/
def weave {β γ : Type} (sk : β → Bool) (d : β → γ) : List β → List γ → List γ
  | [], _ => []
  | b :: bs, vs =>
    if sk b then d b :: weave sk d bs vs
    else match vs with
      | v :: vs => v :: weave sk d bs vs
      | [] => []

theorem eachM_filter {β γ : Type} {g : β → M ε σ γ} {sk : β → Bool} {d : β → γ} : ∀ (l : List β),
    (∀ b ∈ l, sk b = true → g b = pure (d b)) →
    eachM g l = eachM g (l.filter fun b => !sk b) >>= fun vs => pure (weave sk d l vs) := by
  intro l
  induction l with
  | nil => intro _; rfl
  | cons b bs ih =>
    intro h
    have ih := ih fun c hc => h c (List.mem_cons_of_mem _ hc)
    cases hs : sk b with
    | true =>
      rw [List.filter_cons_of_neg (by simp [hs]), eachM, h b (List.mem_cons_self ..) hs, ih]
      simp [weave, hs]
    | false =>
      rw [List.filter_cons_of_pos (by simp [hs]), eachM, eachM, ih]
      simp [weave, hs]

/-- Type look-up in a declaration with distinct names. -/
theorem lookup_field {β γ : Type} (nm : β → Txt) (ty : β → γ) : ∀ (l : List β), (l.map nm).Pairwise (· ≠ ·) →
    ∀ b ∈ l, (l.map fun b => (nm b, ty b)).lookup (nm b) = some (ty b) := by
  intro l
  induction l with
  | nil => intro _ b hb; simp at hb
  | cons c cs ih =>
    intro hd b hb
    rw [List.map_cons, List.pairwise_cons] at hd
    rw [List.map_cons]
    rcases List.mem_cons.1 hb with rfl | hb
    · rw [List.lookup_cons]; simp
    · have hne : nm b ≠ nm c := (hd.1 (nm b) (List.mem_map_of_mem hb)).symm
      rw [List.lookup_cons]
      simp only [show (nm b == nm c) = false by simpa using hne]
      exact ih hd.2 b hb

theorem runLit_map {β : Type} {C : RCtx ε σ} {L : Locals} {fields : List (Txt × Txt)} (nm ty : β → Txt) (init : β → RInit) :
    ∀ (l : List β), (∀ b ∈ l, fields.lookup (nm b) = some (ty b)) →
    runLit C L fields (l.map fun b => (nm b, init b)) =
      eachM (fun b => (init b).run C L (ty b)) l >>= fun vs => pure ((l.map nm).zip vs) := by
  intro l
  induction l with
  | nil => intro _; rfl
  | cons b bs ih =>
    intro h
    rw [List.map_cons, runLit, h b (List.mem_cons_self ..), ih fun c hc => h c (List.mem_cons_of_mem _ hc)]
    simp [eachM]

theorem runLit_append {C : RCtx ε σ} {L : Locals} {fields : List (Txt × Txt)} : ∀ (as bs : List (Txt × RInit)),
    runLit C L fields (as ++ bs) = (do
      let x ← runLit C L fields as
      let y ← runLit C L fields bs
      pure (x ++ y)) := by
  intro as bs
  induction as with
  | nil => simp [runLit]
  | cons a as ih =>
    obtain ⟨f, e⟩ := a
    rw [List.cons_append, runLit, runLit]
    cases fields.lookup f with
    | none => funext s; rfl
    | some t => simp [ih]

theorem lookup_append {β : Type} (x : Txt) : ∀ (as bs : List (Txt × β)),
    (as ++ bs).lookup x = (as.lookup x).or (bs.lookup x) := by
  intro as bs
  induction as with
  | nil => rfl
  | cons a as ih =>
    obtain ⟨k, v⟩ := a
    rw [List.cons_append, List.lookup_cons, List.lookup_cons]
    cases hk : x == k <;> simp [ih]

theorem lookup_zip_none {β : Type} (x : Txt) : ∀ (ks : List Txt) (vs : List β), x ∉ ks → (ks.zip vs).lookup x = none := by
  intro ks
  induction ks with
  | nil => intro vs _; rfl
  | cons k ks ih =>
    intro vs h
    cases vs with
    | nil => rfl
    | cons v vs =>
      rw [List.zip_cons_cons, List.lookup_cons]
      rw [show (x == k) = false by simpa using fun e : x = k => h (e ▸ List.mem_cons_self ..)]
      exact ih vs fun hm => h (List.mem_cons_of_mem _ hm)

theorem lookup_map_none {β γ : Type} (x : Txt) (nm : β → Txt) (d : β → γ) : ∀ (l : List β), x ∉ l.map nm →
    (l.map fun b => (nm b, d b)).lookup x = none := by
  intro l
  induction l with
  | nil => intro _; rfl
  | cons b bs ih =>
    intro h
    rw [List.map_cons, List.lookup_cons]
    rw [show (x == nm b) = false by simpa using fun e : x = nm b => h (by simp [e])]
    exact ih fun hm => h (by simp only [List.map_cons, List.mem_cons]; exact Or.inr hm)

theorem allSome_congr {β γ : Type} {f g : β → Option γ} {l : List β} (h : ∀ b ∈ l, f b = g b) :
    allSome (l.map f) = allSome (l.map g) := by
  rw [List.map_congr_left h]

theorem mem_filter_names {β : Type} {nm : β → Txt} {p : β → Bool} {l : List β} {x : Txt} (h : x ∉ l.map nm) :
    x ∉ (l.filter p).map nm := by
  intro hm
  obtain ⟨b, hb, rfl⟩ := List.mem_map.1 hm
  exact h (List.mem_map_of_mem (List.mem_filter.1 hb).1)

/-- Fields written in another order, the skipped ones last. -/
theorem lookups_weave {β : Type} (nm : β → Txt) (sk : β → Bool) (d : β → Val) : ∀ (l : List β), (l.map nm).Pairwise (· ≠ ·) →
    ∀ (vs : List Val), vs.length = (l.filter fun b => !sk b).length →
    allSome (l.map fun b => ((((l.filter fun b => !sk b).map nm).zip vs) ++
      ((l.filter sk).map fun b => (nm b, d b))).lookup (nm b)) = some (weave sk d l vs) := by
  intro l
  induction l with
  | nil => intro _ vs _; rfl
  | cons b bs ih =>
    intro hd vs hl
    rw [List.map_cons, List.pairwise_cons] at hd
    have hb : nm b ∉ bs.map nm := fun hm => hd.1 _ hm rfl
    rw [List.map_cons, allSome]
    cases hs : sk b with
    | true =>
      rw [List.filter_cons_of_neg (by simp [hs])] at hl ⊢
      rw [List.filter_cons_of_pos (by simp [hs])]
      rw [lookup_append, lookup_zip_none _ _ _ (mem_filter_names hb), List.map_cons, List.lookup_cons]
      simp only [beq_self_eq_true, Option.none_or, Option.bind_some]
      rw [allSome_congr (g := fun c => ((((bs.filter fun b => !sk b).map nm).zip vs) ++
        ((bs.filter sk).map fun b => (nm b, d b))).lookup (nm c)), ih hd.2 vs hl]
      · simp [weave, hs]
      · intro c hc
        rw [lookup_append, lookup_append, List.lookup_cons]
        rw [show (nm c == nm b) = false by simpa using fun e : nm c = nm b => hb (e ▸ List.mem_map_of_mem hc)]
    | false =>
      rw [List.filter_cons_of_pos (by simp [hs])] at hl ⊢
      rw [List.filter_cons_of_neg (by simp [hs])]
      cases vs with
      | nil => simp at hl
      | cons v vs =>
        simp only [List.length_cons, Nat.add_right_cancel_iff] at hl
        rw [List.map_cons, List.zip_cons_cons, List.cons_append, List.lookup_cons]
        simp only [beq_self_eq_true, Option.bind_some]
        rw [allSome_congr (g := fun c => ((((bs.filter fun b => !sk b).map nm).zip vs) ++
          ((bs.filter sk).map fun b => (nm b, d b))).lookup (nm c)), ih hd.2 vs hl]
        · simp [weave, hs]
        · intro c hc
          rw [List.lookup_cons]
          rw [show (nm c == nm b) = false by simpa using fun e : nm c = nm b => hb (e ▸ List.mem_map_of_mem hc)]

theorem weave_none {β γ : Type} (d : β → γ) : ∀ (l : List β) (vs : List γ), vs.length = l.length →
    weave (fun _ => false) d l vs = vs := by
  intro l
  induction l with
  | nil => intro vs h; exact (List.length_eq_zero_iff.1 h).symm
  | cons b bs ih =>
    intro vs h
    cases vs with
    | nil => simp at h
    | cons v vs => simp [weave, ih vs (by simpa using h)]

theorem inOrder_zip {β : Type} (nm ty : β → Txt) (l : List β) (hd : (l.map nm).Pairwise (· ≠ ·)) (vs : List Val)
    (hl : vs.length = l.length) : inOrder (l.map fun b => (nm b, ty b)) ((l.map nm).zip vs) = some vs := by
  have h := lookups_weave nm (fun _ => false) (fun _ => Val.unit) l hd vs (by rw [show (l.filter fun _ => !false) = l from List.filter_eq_self.2 fun _ _ => rfl]; exact hl)
  rw [weave_none _ _ _ hl] at h
  rw [inOrder, if_pos (by simp [hl]), List.map_map]
  have hf : (l.filter fun _ => !false) = l := List.filter_eq_self.2 fun _ _ => rfl
  have hg : (l.filter fun _ => false) = [] := by simp
  simp only [hf, hg, List.map_nil, List.append_nil] at h
  exact h

/-- A literal with the fields in the order of the declaration. -/
theorem lit_run {β : Type} {C : RCtx ε σ} {L : Locals} {path : List Txt} {kind : Option Bool} {build : List Val → Val}
    (nm ty : β → Txt) (init : β → RInit) (l : List β) (ht : C.target path = some ⟨kind, l.map fun b => (nm b, ty b), build⟩)
    (hd : (l.map nm).Pairwise (· ≠ ·)) :
    (RCons.lit path (l.map fun b => (nm b, init b))).run C L =
      eachM (fun b => (init b).run C L (ty b)) l >>= fun vs => pure (build vs) := by
  rw [RCons.run, ht]
  simp only
  rw [runLit_map nm ty init l (lookup_field nm ty l hd), bind_assoc]
  refine eachM_len _ _ _ l fun vs hl => ?_
  rw [pure_bind, inOrder_zip nm ty l hd vs hl]
  rfl

theorem app_run {β : Type} {C : RCtx ε σ} {L : Locals} {path : List Txt} {build : List Val → Val}
    (ty : β → Txt) (init : RInit) (l : List β) (fs : List (Txt × Txt)) (ht : C.target path = some ⟨some false, fs, build⟩)
    (hf : fs.map Prod.snd = l.map ty) {γ : Type} (l' : List γ) (hl' : l'.length = l.length) :
    (RCons.app path (l'.map fun _ => init)).run C L =
      eachM (fun b => init.run C L (ty b)) l >>= fun vs => pure (build vs) := by
  have : ∀ (l : List β) (fs : List (Txt × Txt)) (l' : List γ), fs.map Prod.snd = l.map ty → l'.length = l.length →
      runApp C L fs (l'.map fun _ => init) = eachM (fun b => init.run C L (ty b)) l := by
    intro l
    induction l with
    | nil =>
      intro fs l' h h'
      cases fs with
      | nil => rw [List.length_eq_zero_iff.1 h']; rfl
      | cons _ _ => simp at h
    | cons b bs ih =>
      intro fs l' h h'
      cases fs with
      | nil => simp at h
      | cons f fs =>
        cases l' with
        | nil => simp at h'
        | cons c cs =>
          obtain ⟨x, t⟩ := f
          simp only [List.map_cons, List.cons.injEq] at h
          rw [List.map_cons, runApp, eachM, ih fs cs h.2 (by simpa using h'), h.1]
  rw [RCons.run, ht]
  simp only [if_true]
  rw [this l fs l' hf hl']

/-! ## The clauses of the readers, as one thing after the other -/

theorem deTys_each (f : Ty → M ε σ Val) : ∀ (ts : List Ty), deTys f ts = eachM f ts := by
  intro ts
  induction ts with
  | nil => rfl
  | cons t ts ih => rw [deTys, eachM, ih]

theorem deBinFields_each (f : Ty → BinM Val) (us : Bool) : ∀ (fs : List Field), deBinFields f us fs =
    eachM (fun fd : Field => if us ∧ fd.skip then pure fd.tyDefault else f fd.ty) fs := by
  intro fs
  induction fs with
  | nil => rfl
  | cons t ts ih => rw [deBinFields, eachM, ih]; split <;> rfl

theorem deTysEat_each (de : Ty → PM Val) (eat : PM Unit) : ∀ (ts : List Ty), deTysEat de eat ts =
    eachM (fun t => thenEat (de t) eat) ts := by
  intro ts
  induction ts with
  | nil => rfl
  | cons t ts ih => rw [deTysEat, eachM, ih]

end NS.Derive
