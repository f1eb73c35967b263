import Verif.Spec.HashOrder
import Verif.Lemmas.Reread
/-!
# Reordering hash containers keeps types, exactness and the length of binary encodings
-/
set_option linter.unusedVariables false
namespace NS
variable {env : Env}

/-! ## Componentwise predicates -/

theorem allTy_map_iff {α : Type} {t : Ty} {ps : List α} {f : α → Val} : AllTy env t (ps.map f) ↔ ∀ p ∈ ps, HasTy env t (f p) := by
  induction ps with
  | nil => simp [AllTy]
  | cons a ps ih => simp [AllTy, ih]

theorem tysTy_map_iff {α : Type} {ps : List α} {g : α → Ty} {f : α → Val} :
    TysTy env (ps.map g) (ps.map f) ↔ ∀ p ∈ ps, HasTy env (g p) (f p) := by
  induction ps with
  | nil => simp [TysTy]
  | cons a ps ih => simp [TysTy, ih]

theorem fieldsTy_map_iff {α : Type} {ps : List α} {g : α → Field} {f : α → Val} :
    FieldsTy env (ps.map g) (ps.map f) ↔ ∀ p ∈ ps, HasTy env (g p).ty (f p) := by
  induction ps with
  | nil => simp [FieldsTy]
  | cons a ps ih => simp [FieldsTy, ih]

theorem entriesTy_iff {k t : Ty} {es : List Val} :
    EntriesTy env k t es ↔ ∀ e ∈ es, ∃ a b, e = .entry a b ∧ HasTy env k a ∧ HasTy env t b := by
  induction es with
  | nil => simp [EntriesTy]
  | cons e es ih =>
    cases e <;> simp [EntriesTy, ih]
    rename_i a b
    exact ⟨fun ⟨h1, h2, h3⟩ => ⟨⟨a, b, ⟨rfl, rfl⟩, h1, h2⟩, h3⟩, fun ⟨⟨_, _, ⟨rfl, rfl⟩, h1, h2⟩, h3⟩ => ⟨h1, h2, h3⟩⟩

section holds
variable {P : Ty → Val → Prop} {dflt : Field → Val} {siv : Bool}

theorem holdsAll_iff {t : Ty} {vs : List Val} : HoldsAll env P dflt siv t vs ↔ ∀ v ∈ vs, Holds env P dflt siv t v := by
  induction vs with
  | nil => simp [HoldsAll]
  | cons a ps ih => simp [HoldsAll, ih]

theorem holdsTys_map_iff {α : Type} {ps : List α} {g : α → Ty} {f : α → Val} :
    HoldsTys env P dflt siv (ps.map g) (ps.map f) ↔ ∀ p ∈ ps, Holds env P dflt siv (g p) (f p) := by
  induction ps with
  | nil => simp [HoldsTys]
  | cons a ps ih => simp [HoldsTys, ih]

theorem holdsFields_map_iff {us : Bool} {α : Type} {ps : List α} {g : α → Field} {f : α → Val} :
    HoldsFields env P dflt siv us (ps.map g) (ps.map f) ↔
      ∀ p ∈ ps, if us ∧ (g p).skip then f p = dflt (g p) else Holds env P dflt siv (g p).ty (f p) := by
  induction ps with
  | nil => simp [HoldsFields]
  | cons a ps ih => simp [HoldsFields, ih]

theorem holdsEntries_iff {k t : Ty} {es : List Val} (hE : ∀ e ∈ es, ∃ a b, e = Val.entry a b) :
    HoldsEntries env P dflt siv k t es ↔ ∀ a b, Val.entry a b ∈ es → Holds env P dflt siv k a ∧ Holds env P dflt siv t b := by
  induction es with
  | nil => simp [HoldsEntries]
  | cons e es ih =>
    obtain ⟨a, b, rfl⟩ := hE e (by simp)
    simp only [HoldsEntries, ih fun e he => hE e (by simp [he]), List.mem_cons, Val.entry.injEq]
    constructor
    · rintro ⟨h1, h2, h3⟩ x y (⟨rfl, rfl⟩ | h)
      · exact ⟨h1, h2⟩
      · exact h3 _ _ h
    · exact fun h => ⟨(h a b (.inl ⟨rfl, rfl⟩)).1, (h a b (.inl ⟨rfl, rfl⟩)).2, fun x y hm => h x y (.inr hm)⟩

end holds

/-! ## Symmetry -/

/-- A permutation of the images of a list is the image of a permutation. -/
theorem perm_map_inv {α β : Type} (f : α → β) {l : List β} : ∀ {ps : List α}, (ps.map f).Perm l → ∃ qs : List α, qs.Perm ps ∧ l = qs.map f := by
  intro ps h
  generalize hm : ps.map f = m at h
  induction h generalizing ps with
  | nil => exact ⟨ps, .refl _, hm.symm⟩
  | cons x h ih =>
    match ps, hm with
    | p :: ps, hm =>
      simp only [List.map_cons, List.cons.injEq] at hm
      obtain ⟨qs, h1, h2⟩ := ih hm.2
      exact ⟨p :: qs, h1.cons p, by simp [h2, hm.1]⟩
  | swap x y l =>
    match ps, hm with
    | p :: q :: ps, hm =>
      simp only [List.map_cons, List.cons.injEq] at hm
      exact ⟨q :: p :: ps, .swap .., by simp [hm.1, hm.2.1, hm.2.2]⟩
  | trans h1 h2 ih1 ih2 =>
    obtain ⟨qs, a, b⟩ := ih1 hm
    obtain ⟨rs, c, d⟩ := ih2 b.symm
    exact ⟨rs, c.trans a, d⟩

theorem reordered_symm {t : Ty} {v w : Val} (h : Reordered env t v w) : Reordered env t w v := by
  induction h with
  | same => exact .same
  | hset h => exact .hset h.symm
  | @hmap k t ws ps h hp ih =>
    obtain ⟨qs, h1, rfl⟩ := perm_map_inv _ hp
    have := Reordered.hmap (env := env) (k := k) (t := t) (ws := ps.map fun p => Val.entry p.1 p.2.1) (qs.map fun p => (p.1, p.2.2, p.2.1))
      (by
        intro p hp
        obtain ⟨q, hq, rfl⟩ := List.mem_map.1 hp
        exact ih q (h1.mem_iff.1 hq))
      (by rw [List.map_map]; exact h1.map _)
    rwa [List.map_map] at this
  | @bmap k t ps h ih =>
    have := Reordered.bmap (env := env) (k := k) (t := t) (ps.map fun p => (p.1, p.2.2, p.2.1)) (by
      intro p hp
      obtain ⟨q, hq, rfl⟩ := List.mem_map.1 hp
      exact ih q hq)
    simpa [List.map_map, Function.comp_def] using this
  | some _ ih => exact .some ih
  | box _ ih => exact .box ih
  | @vec t ps h ih =>
    have := Reordered.vec (env := env) (t := t) (ps.map fun p => (p.2, p.1)) (by
      intro p hp; obtain ⟨q, hq, rfl⟩ := List.mem_map.1 hp; exact ih q hq)
    simpa [List.map_map, Function.comp_def] using this
  | @linked t ps h ih =>
    have := Reordered.linked (env := env) (t := t) (ps.map fun p => (p.2, p.1)) (by
      intro p hp; obtain ⟨q, hq, rfl⟩ := List.mem_map.1 hp; exact ih q hq)
    simpa [List.map_map, Function.comp_def] using this
  | @array t n ps h ih =>
    have := Reordered.array (env := env) (t := t) (n := n) (ps.map fun p => (p.2, p.1)) (by
      intro p hp; obtain ⟨q, hq, rfl⟩ := List.mem_map.1 hp; exact ih q hq)
    simpa [List.map_map, Function.comp_def] using this
  | @pair a b ps hm h ih =>
    have := Reordered.pair (env := env) (a := a) (b := b) (ps.map fun p => (p.1, p.2.2, p.2.1)) (by simpa [List.map_map, Function.comp_def] using hm) (by
      intro p hp; obtain ⟨q, hq, rfl⟩ := List.mem_map.1 hp; exact ih q hq)
    simpa [List.map_map, Function.comp_def] using this
  | @triple a b c ps hm h ih =>
    have := Reordered.triple (env := env) (a := a) (b := b) (c := c) (ps.map fun p => (p.1, p.2.2, p.2.1)) (by simpa [List.map_map, Function.comp_def] using hm) (by
      intro p hp; obtain ⟨q, hq, rfl⟩ := List.mem_map.1 hp; exact ih q hq)
    simpa [List.map_map, Function.comp_def] using this
  | @quad a b c d ps hm h ih =>
    have := Reordered.quad (env := env) (a := a) (b := b) (c := c) (d := d) (ps.map fun p => (p.1, p.2.2, p.2.1)) (by simpa [List.map_map, Function.comp_def] using hm) (by
      intro p hp; obtain ⟨q, hq, rfl⟩ := List.mem_map.1 hp; exact ih q hq)
    simpa [List.map_map, Function.comp_def] using this
  | @struct i cd nn ps hd hs h ih =>
    have := Reordered.struct (env := env) (i := i) (cd := cd) (nn := nn) (ps.map fun p => (p.1, p.2.2, p.2.1))
      (by simpa [List.map_map, Function.comp_def] using hd)
      (by intro p hp; obtain ⟨q, hq, rfl⟩ := List.mem_map.1 hp; exact fun h => (hs q hq h).symm)
      (by intro p hp; obtain ⟨q, hq, rfl⟩ := List.mem_map.1 hp; exact ih q hq)
    simpa [List.map_map, Function.comp_def] using this
  | @tuple i tr ps hd h ih =>
    have := Reordered.tuple (env := env) (i := i) (tr := tr) (ps.map fun p => (p.1, p.2.2, p.2.1))
      (by simpa [List.map_map, Function.comp_def] using hd)
      (by intro p hp; obtain ⟨q, hq, rfl⟩ := List.mem_map.1 hp; exact ih q hq)
    simpa [List.map_map, Function.comp_def] using this
  | @tupleVariant i j vars nm rn ps hd hv h ih =>
    have := Reordered.tupleVariant (env := env) (i := i) (j := j) (nm := nm) (rn := rn) (ps.map fun p => (p.1, p.2.2, p.2.1)) hd
      (by simpa [List.map_map, Function.comp_def] using hv)
      (by intro p hp; obtain ⟨q, hq, rfl⟩ := List.mem_map.1 hp; exact ih q hq)
    simpa [List.map_map, Function.comp_def] using this
  | @structVariant i j vars nm rn ps hd hv hs h ih =>
    have := Reordered.structVariant (env := env) (i := i) (j := j) (nm := nm) (rn := rn) (ps.map fun p => (p.1, p.2.2, p.2.1)) hd
      (by simpa [List.map_map, Function.comp_def] using hv)
      (by intro p hp; obtain ⟨q, hq, rfl⟩ := List.mem_map.1 hp; exact fun h => (hs q hq h).symm)
      (by intro p hp; obtain ⟨q, hq, rfl⟩ := List.mem_map.1 hp; exact ih q hq)
    simpa [List.map_map, Function.comp_def] using this

/-! ## Types -/

theorem pairwise_keys {ps : List (Val × Val × Val)} {R : Val → Val → Prop}
    (h : (ps.map fun p => Val.entry p.1 p.2.1).Pairwise fun a b => R a.key b.key) :
    (ps.map fun p => Val.entry p.1 p.2.2).Pairwise fun a b => R a.key b.key := by
  rw [List.pairwise_map] at h ⊢
  exact h

theorem entries_map {k t : Ty} {ps : List (Val × Val × Val)} (h : EntriesTy env k t (ps.map fun p => Val.entry p.1 p.2.1))
    (ih : ∀ p ∈ ps, HasTy env t p.2.1 → HasTy env t p.2.2) : EntriesTy env k t (ps.map fun p => Val.entry p.1 p.2.2) := by
  rw [entriesTy_iff] at h ⊢
  intro e he
  obtain ⟨p, hp, rfl⟩ := List.mem_map.1 he
  obtain ⟨a, b, e, h1, h2⟩ := h _ (List.mem_map.2 ⟨p, hp, rfl⟩)
  injection e with e1 e2
  subst e1 e2
  exact ⟨_, _, rfl, h1, ih p hp h2⟩

theorem reordered_typed {t : Ty} {v w : Val} (h : Reordered env t v w) (hT : HasTy env t v) : HasTy env t w := by
  induction h with
  | same => exact hT
  | @hset t vs ws h =>
    simp only [HasTy, AllTy_iff] at hT ⊢
    exact ⟨fun x hx => hT.1 x (h.mem_iff.2 hx), h.length_eq ▸ hT.2.1, h.length_eq ▸ hT.2.2.1, h.pairwise hT.2.2.2 fun e => (e ·.symm)⟩
  | @hmap k t ws ps h hp ih =>
    simp only [HasTy] at hT ⊢
    obtain ⟨h1, h2, h3, h4⟩ := hT
    simp only [List.length_map] at h2 h3
    have hl := hp.length_eq
    simp only [List.length_map] at hl
    refine ⟨?_, hl ▸ h2, hl ▸ h3, hp.pairwise (pairwise_keys (R := (· ≠ ·)) h4) fun e => (e ·.symm)⟩
    have := entries_map h1 ih
    rw [entriesTy_iff] at this ⊢
    exact fun e he => this e (hp.mem_iff.2 he)
  | @bmap k t ps h ih =>
    simp only [HasTy, List.length_map] at hT ⊢
    exact ⟨entries_map hT.1 ih, hT.2.1, pairwise_keys (R := fun a b => env.cmp a b = .lt) hT.2.2⟩
  | some _ ih => simp only [HasTy] at hT ⊢; exact ih hT
  | box _ ih => simp only [HasTy] at hT ⊢; exact ih hT
  | @vec t ps h ih =>
    simp only [HasTy, List.length_map, allTy_map_iff] at hT ⊢
    exact ⟨fun p hp => ih p hp (hT.1 p hp), hT.2⟩
  | @linked t ps h ih =>
    simp only [HasTy, List.length_map, allTy_map_iff] at hT ⊢
    exact ⟨fun p hp => ih p hp (hT.1 p hp), hT.2⟩
  | @array t n ps h ih =>
    simp only [HasTy, List.length_map, allTy_map_iff] at hT ⊢
    exact ⟨fun p hp => ih p hp (hT.1 p hp), hT.2⟩
  | @pair a b ps hm h ih =>
    simp only [HasTy, ← hm, tysTy_map_iff] at hT ⊢
    exact fun p hp => ih p hp (hT p hp)
  | @triple a b c ps hm h ih =>
    simp only [HasTy, ← hm, tysTy_map_iff] at hT ⊢
    exact fun p hp => ih p hp (hT p hp)
  | @quad a b c d ps hm h ih =>
    simp only [HasTy, ← hm, tysTy_map_iff] at hT ⊢
    exact fun p hp => ih p hp (hT p hp)
  | @struct i cd nn ps hd hs h ih =>
    simp only [HasTy, hd, fieldsTy_map_iff] at hT ⊢
    intro p hp
    cases hsk : p.1.skip with
    | true => rw [← hs p hp hsk]; exact hT p hp
    | false => exact ih p hp hsk (hT p hp)
  | @tuple i tr ps hd h ih =>
    simp only [HasTy, hd, tysTy_map_iff] at hT ⊢
    exact fun p hp => ih p hp (hT p hp)
  | @tupleVariant i j vars nm rn ps hd hv h ih =>
    simp only [HasTy, hd, hv, tysTy_map_iff] at hT ⊢
    exact fun p hp => ih p hp (hT p hp)
  | @structVariant i j vars nm rn ps hd hv hs h ih =>
    simp only [HasTy, hd, hv, fieldsTy_map_iff] at hT ⊢
    intro p hp
    cases hsk : p.1.skip with
    | true => rw [← hs p hp hsk]; exact hT p hp
    | false => exact ih p hp hsk (hT p hp)

/-! ## Exactness -/

section holds
variable {P : Ty → Val → Prop} {dflt : Field → Val} {siv : Bool}

theorem reordered_holds (hP : ∀ {t v w}, Reordered env t v w → P t v → P t w) {t : Ty} {v w : Val} (h : Reordered env t v w)
    (hH : Holds env P dflt siv t v) : Holds env P dflt siv t w := by
  have keep : ∀ {t v w}, Reordered env t v w → P t v → P t w := hP
  induction h with
  | same => exact hH
  | @hset t vs ws h =>
    simp only [Holds, holdsAll_iff] at hH ⊢
    exact ⟨hP (.hset h) hH.1, fun x hx => hH.2 x (h.mem_iff.2 hx)⟩
  | @hmap k t ws ps h hp ih =>
    simp only [Holds] at hH ⊢
    refine ⟨hP (.hmap ps h hp) hH.1, ?_⟩
    have h2 := (holdsEntries_iff (by intro e he; obtain ⟨p, _, rfl⟩ := List.mem_map.1 he; exact ⟨_, _, rfl⟩)).1 hH.2
    refine (holdsEntries_iff ?_).2 ?_
    · intro e he
      obtain ⟨p, _, rfl⟩ := List.mem_map.1 (hp.mem_iff.2 he)
      exact ⟨_, _, rfl⟩
    · intro a b hm
      obtain ⟨p, hpm, e⟩ := List.mem_map.1 (hp.mem_iff.2 hm)
      injection e with e1 e2
      subst e1 e2
      have := h2 p.1 p.2.1 (List.mem_map.2 ⟨p, hpm, rfl⟩)
      exact ⟨this.1, ih p hpm this.2⟩
  | @bmap k t ps h ih =>
    simp only [Holds] at hH ⊢
    refine ⟨hP (.bmap ps h) hH.1, ?_⟩
    have h2 := (holdsEntries_iff (by intro e he; obtain ⟨p, _, rfl⟩ := List.mem_map.1 he; exact ⟨_, _, rfl⟩)).1 hH.2
    refine (holdsEntries_iff ?_).2 ?_
    · intro e he
      obtain ⟨p, _, rfl⟩ := List.mem_map.1 he
      exact ⟨_, _, rfl⟩
    · intro a b hm
      obtain ⟨p, hpm, e⟩ := List.mem_map.1 hm
      injection e with e1 e2
      subst e1 e2
      have := h2 p.1 p.2.1 (List.mem_map.2 ⟨p, hpm, rfl⟩)
      exact ⟨this.1, ih p hpm this.2⟩
  | some h ih => simp only [Holds] at hH ⊢; exact ⟨hP (.some h) hH.1, ih hH.2⟩
  | box h ih => simp only [Holds] at hH ⊢; exact ⟨hP (.box h) hH.1, ih hH.2⟩
  | @vec t ps h ih =>
    simp only [Holds, holdsAll_iff, List.forall_mem_map] at hH ⊢
    exact ⟨hP (.vec ps h) hH.1, fun p hp => ih p hp (hH.2 p hp)⟩
  | @linked t ps h ih =>
    simp only [Holds, holdsAll_iff, List.forall_mem_map] at hH ⊢
    exact ⟨hP (.linked ps h) hH.1, fun p hp => ih p hp (hH.2 p hp)⟩
  | @array t n ps h ih =>
    simp only [Holds, holdsAll_iff, List.forall_mem_map] at hH ⊢
    exact ⟨hP (.array ps h) hH.1, fun p hp => ih p hp (hH.2 p hp)⟩
  | @pair a b ps hm h ih =>
    simp only [Holds, ← hm, holdsTys_map_iff] at hH ⊢
    exact ⟨hP (.pair ps hm h) hH.1, fun p hp => ih p hp (hH.2 p hp)⟩
  | @triple a b c ps hm h ih =>
    simp only [Holds, ← hm, holdsTys_map_iff] at hH ⊢
    exact ⟨hP (.triple ps hm h) hH.1, fun p hp => ih p hp (hH.2 p hp)⟩
  | @quad a b c d ps hm h ih =>
    simp only [Holds, ← hm, holdsTys_map_iff] at hH ⊢
    exact ⟨hP (.quad ps hm h) hH.1, fun p hp => ih p hp (hH.2 p hp)⟩
  | @struct i cd nn ps hd hs h ih =>
    simp only [Holds, hd, holdsFields_map_iff] at hH ⊢
    refine ⟨hP (.struct ps hd hs h) hH.1, fun p hp => ?_⟩
    have := hH.2 p hp
    cases hsk : p.1.skip with
    | true => rw [hsk, hs p hp hsk] at this; exact this
    | false => rw [hsk] at this; simp at this ⊢; exact ih p hp hsk this
  | @tuple i tr ps hd h ih =>
    simp only [Holds, hd, holdsTys_map_iff] at hH ⊢
    exact ⟨hP (.tuple ps hd h) hH.1, fun p hp => ih p hp (hH.2 p hp)⟩
  | @tupleVariant i j vars nm rn ps hd hv h ih =>
    simp only [Holds, hd, hv, holdsTys_map_iff] at hH ⊢
    exact ⟨hP (.tupleVariant ps hd hv h) hH.1, fun p hp => ih p hp (hH.2 p hp)⟩
  | @structVariant i j vars nm rn ps hd hv hs h ih =>
    simp only [Holds, hd, hv, holdsFields_map_iff] at hH ⊢
    refine ⟨hP (.structVariant ps hd hv hs h) hH.1, fun p hp => ?_⟩
    have := hH.2 p hp
    cases hsk : p.1.skip with
    | true => rw [hsk, hs p hp hsk] at this; exact this
    | false => rw [hsk] at this; simp at this ⊢; exact ih p hp hsk this

end holds

/-! ## Forms that collapse in an `Option` -/

theorem reordered_nullForm {t : Ty} {v w : Val} (hn : NullForm env t v) : Reordered env t v w → NullForm env t w := by
  induction hn generalizing w with
  | unit => intro h; cases h; exact .unit
  | none => intro h; cases h; exact .none
  | past hs => intro h; cases h; exact .past hs
  | some hn ih => intro h; cases h with
    | same => exact .some hn
    | some h => exact .some (ih h)
  | box hn ih => intro h; cases h with
    | same => exact .box hn
    | box h => exact .box (ih h)
  | @transparent i t v vs hd hn ih =>
    intro h
    generalize hx : Val.struct (v :: vs) = x at h
    generalize ht : Ty.named i = tt at h
    cases h with
    | same => subst hx ht; exact .transparent hd hn
    | @tuple i' tr ps hd' h =>
      injection ht with ht
      subst ht
      rw [hd] at hd'
      injection hd' with e
      injection e with e1 e2
      match ps, e1, hx with
      | [p], e1, hx =>
        simp only [List.map_cons, List.map_nil, List.cons.injEq, and_true] at e1
        simp only [List.map_cons, List.map_nil, Val.struct.injEq, List.cons.injEq] at hx
        obtain ⟨rfl, rfl⟩ := hx
        subst e1
        exact .transparent hd (ih (h p (by simp)))
    | @struct i' cd nn ps hd' hs h => injection ht with ht; subst ht; rw [hd] at hd'; cases hd'
    | hset | hmap | bmap | some | box | vec | linked | array | pair | triple | quad | tupleVariant | structVariant => first | (cases hx; done) | (cases ht; done)
  | proxied hp hn ih => intro h; cases h; exact .proxied hp hn

theorem reordered_noneForm {t : Ty} {v w : Val} (hn : NoneForm env t v) : Reordered env t v w → NoneForm env t w := by
  induction hn generalizing w with
  | none => intro h; cases h; exact .none
  | past hs => intro h; cases h; exact .past hs
  | variant h1 h2 h3 =>
    intro h
    cases h with
    | same => exact .variant h1 h2 h3
    | tupleVariant => exact .variant h1 h2 h3
    | structVariant => exact .variant h1 h2 h3
  | some hn ih => intro h; cases h with
    | same => exact .some hn
    | some h => exact .some (ih h)
  | box hn ih => intro h; cases h with
    | same => exact .box hn
    | box h => exact .box (ih h)
  | proxied hp hn ih => intro h; cases h; exact .proxied hp hn

theorem reordered_binExact {t : Ty} {v w : Val} (h : Reordered env t v w) (hX : BinExact env t v) : BinExact env t w :=
  reordered_holds (fun {t v w} h hv => by cases h <;> first | exact hv | (intro s n e; cases e)) h hX

theorem reordered_jsonExact {t : Ty} {v w : Val} (h : Reordered env t v w) (hX : JsonExact env t v) : JsonExact env t w :=
  reordered_holds (fun {t v w} h hv => by
    refine ⟨hv.1, ?_, ?_, ?_, ?_⟩
    · cases h <;> first | exact hv.2.1 | (intro x e; cases e)
    · cases h <;> first | exact hv.2.2.1 | (intro x e; cases e)
    · cases h <;> first | exact hv.2.2.2.1 | (intro s n e; cases e)
    · intro t' w' e1 e2 hn
      subst e1 e2
      cases h with
      | same => exact hv.2.2.2.2 _ _ rfl rfl hn
      | some h => exact hv.2.2.2.2 _ _ rfl rfl (reordered_nullForm hn (reordered_symm h))) h hX

theorem reordered_ronExact {t : Ty} {v w : Val} (h : Reordered env t v w) (hX : RonExact env t v) : RonExact env t w :=
  reordered_holds (fun {t v w} h hv => by
    refine ⟨hv.1, ?_, ?_, ?_, ?_, hv.2.2.2.2.2⟩
    · cases h <;> first | exact hv.2.1 | (intro x e; cases e)
    · cases h <;> first | exact hv.2.2.1 | (intro x e; cases e)
    · cases h <;> first | exact hv.2.2.2.1 | (intro s n e; cases e)
    · intro t' w' e1 e2 hn
      subst e1 e2
      cases h with
      | same => exact hv.2.2.2.2.1 _ _ rfl rfl hn
      | some h => exact hv.2.2.2.2.1 _ _ rfl rfl (reordered_noneForm hn (reordered_symm h))) h hX

/-! ## Lengths of binary encodings -/

theorem serBinAll_len {t : Ty} {vs : List Val} : (serBinAll env t vs).length = (vs.map fun v => (serBin env t v).length).sum := by
  induction vs with
  | nil => rfl
  | cons v vs ih => simp [serBinAll, ih]

/-- The bytes of one entry. -/
def entryLen (env : Env) (k t : Ty) : Val → Nat
  | .entry a b => (serBin env k a).length + (serBin env t b).length
  | _ => 0

theorem serBinEntries_len {k t : Ty} {vs : List Val} : (serBinEntries env k t vs).length = (vs.map (entryLen env k t)).sum := by
  induction vs with
  | nil => rfl
  | cons v vs ih => cases v <;> simp [serBinEntries, ih, entryLen, Nat.add_assoc]

theorem serBinTys_map_len {α : Type} {ps : List α} {g : α → Ty} {f : α → Val} :
    (serBinTys env (ps.map g) (ps.map f)).length = (ps.map fun p => (serBin env (g p) (f p)).length).sum := by
  induction ps with
  | nil => rfl
  | cons v vs ih => simp [serBinTys, ih]

theorem serBinFields_map_len {us : Bool} {α : Type} {ps : List α} {g : α → Field} {f : α → Val} :
    (serBinFields env us (ps.map g) (ps.map f)).length =
      (ps.map fun p => if us ∧ (g p).skip then 0 else (serBin env (g p).ty (f p)).length).sum := by
  induction ps with
  | nil => rfl
  | cons v vs ih =>
    simp only [List.map_cons, serBinFields, List.length_append, ih, List.sum_cons]
    congr 1
    split <;> simp

theorem sum_map_congr {α : Type} {ps : List α} {f g : α → Nat} (h : ∀ p ∈ ps, f p = g p) : (ps.map f).sum = (ps.map g).sum := by
  rw [List.map_congr_left h]

theorem sum_perm {l l' : List Nat} (h : l.Perm l') : l.sum = l'.sum := by
  induction h with
  | nil => rfl
  | cons _ _ ih => simp [ih]
  | swap => simp; omega
  | trans _ _ a b => exact a.trans b

theorem reordered_binLen {t : Ty} {v w : Val} (h : Reordered env t v w) : (serBin env t v).length = (serBin env t w).length := by
  induction h with
  | same => rfl
  | @hset t vs ws h =>
    simp only [serBin, List.length_append, serBinAll_len, h.length_eq]
    rw [sum_perm (h.map _)]
  | @hmap k t ws ps h hp ih =>
    have hl := hp.length_eq
    simp only [List.length_map] at hl
    simp only [serBin, List.length_append, serBinEntries_len, List.length_map, hl]
    rw [sum_perm ((hp.symm).map _), List.map_map, List.map_map]
    congr 1
    exact sum_map_congr fun p hp => by simp [entryLen, ih p hp]
  | @bmap k t ps h ih =>
    simp only [serBin, List.length_append, serBinEntries_len, List.length_map, List.map_map]
    congr 1
    exact sum_map_congr fun p hp => by simp [entryLen, ih p hp]
  | some _ ih => simp [serBin, ih]
  | box _ ih => simp [serBin, ih]
  | @vec t ps h ih =>
    simp only [serBin, List.length_append, serBinAll_len, List.length_map, List.map_map]
    congr 1
    exact sum_map_congr fun p hp => ih p hp
  | @linked t ps h ih =>
    simp only [serBin, List.length_append, serBinAll_len, List.length_map, List.map_map]
    congr 1
    exact sum_map_congr fun p hp => ih p hp
  | @array t n ps h ih =>
    simp only [serBin, serBinAll_len, List.map_map]
    exact sum_map_congr fun p hp => ih p hp
  | @pair a b ps hm h ih =>
    simp only [serBin, ← hm, serBinTys_map_len]
    exact sum_map_congr fun p hp => ih p hp
  | @triple a b c ps hm h ih =>
    simp only [serBin, ← hm, serBinTys_map_len]
    exact sum_map_congr fun p hp => ih p hp
  | @quad a b c d ps hm h ih =>
    simp only [serBin, ← hm, serBinTys_map_len]
    exact sum_map_congr fun p hp => ih p hp
  | @struct i cd nn ps hd hs h ih =>
    simp only [serBin, hd, serBinFields_map_len]
    refine sum_map_congr fun p hp => ?_
    cases hsk : p.1.skip with
    | true => simp
    | false => simp [ih p hp hsk]
  | @tuple i tr ps hd h ih =>
    simp only [serBin, hd, serBinTys_map_len]
    exact sum_map_congr fun p hp => ih p hp
  | @tupleVariant i j vars nm rn ps hd hv h ih =>
    simp only [serBin, hd, hv, List.length_append, serBinTys_map_len]
    congr 1
    exact sum_map_congr fun p hp => ih p hp
  | @structVariant i j vars nm rn ps hd hv hs h ih =>
    simp only [serBin, hd, hv, List.length_append, serBinFields_map_len]
    congr 1
    refine sum_map_congr fun p hp => ?_
    cases hsk : p.1.skip with
    | true => simp [hs p hp hsk]
    | false => simp [ih p hp hsk]

/-! ## Sorting -/

theorem mapGet_mem_iff {l : List Val} {q v : Val} (hl : AllEntries l) (hd : l.Pairwise fun a b => a.key ≠ b.key) :
    mapGet q l = some v ↔ Val.entry q v ∈ l := by
  induction l with
  | nil => simp [mapGet]
  | cons x l ih =>
    obtain ⟨a, b, rfl⟩ := hl x (by simp)
    rw [List.pairwise_cons] at hd
    have ih := ih (fun w hw => hl w (by simp [hw])) hd.2
    simp only [mapGet]
    by_cases ha : a = q
    · subst ha
      simp only [if_true, Option.some.injEq, List.mem_cons, Val.entry.injEq, true_and]
      constructor
      · exact fun h => .inl h.symm
      · rintro (h | h)
        · exact h.symm
        · exact (hd.1 _ h rfl).elim
    · simp only [if_neg ha, ih, List.mem_cons, Val.entry.injEq]
      exact ⟨.inr, fun h => h.resolve_left fun e => ha e.1.symm⟩

theorem mapGet_perm {es r : List Val} (hE : AllEntries es) (hd : es.Pairwise fun a b => a.key ≠ b.key) (hp : r.Perm es) (q : Val) :
    mapGet q r = mapGet q es := by
  have hE' : AllEntries r := fun w hw => hE w (hp.mem_iff.1 hw)
  have hd' : r.Pairwise fun a b => a.key ≠ b.key := (hp.symm.pairwise_iff (fun h => h.symm)).1 hd
  apply Option.ext
  intro v
  rw [mapGet_mem_iff hE' hd', mapGet_mem_iff hE hd, hp.mem_iff]

/-- Some order of the entries is ascending. -/
theorem exists_sorted_entries (hk : LawfulKeys env) {es : List Val} (hE : AllEntries es) (hd : es.Pairwise fun a b => a.key ≠ b.key) :
    ∃ r : List Val, r.Perm es ∧ r.Pairwise fun a b => env.cmp a.key b.key = .lt := by
  obtain ⟨h1, h2⟩ := bmap_fold_pairwise hk es [] hE (by simp [AllEntries]) (by simp)
  have hg := fun q => bmap_fold_get hk es [] q hE (by simp [AllEntries])
  refine ⟨_, (List.perm_ext_iff_of_nodup ?_ ?_).2 ?_, h2⟩
  · exact h2.imp fun h e => by subst e; exact cmp_irrefl hk _ h
  · exact hd.imp fun h e => h (by rw [e])
  · intro a
    have get : ∀ k v, mapGet k (es.foldl (collInsert env .bmap) []) = some v ↔ Val.entry k v ∈ es := by
      intro k v
      rw [hg k, ← lastVal_mapGet hE hd k]
      rw [← mapGet_mem_iff hE hd]
      cases mapGet k es <;> simp [mapGet]
    constructor
    · intro ha
      obtain ⟨k, v, rfl⟩ := h1 a ha
      exact (get k v).1 ((mapGet_mem hk h1 h2 k v).2 ha)
    · intro ha
      obtain ⟨k, v, rfl⟩ := hE a ha
      exact (mapGet_mem hk h1 h2 k v).1 ((get k v).2 ha)

theorem exists_sorted (hk : LawfulKeys env) {es : List Val} (hd : es.Pairwise (· ≠ ·)) :
    ∃ r : List Val, r.Perm es ∧ r.Pairwise fun a b => env.cmp a b = .lt := by
  have h2 := bset_fold_pairwise hk es [] (by simp)
  refine ⟨_, (List.perm_ext_iff_of_nodup ?_ hd).2 ?_, h2⟩
  · exact h2.imp fun h e => by subst e; exact cmp_irrefl hk _ h
  · intro a; rw [bset_fold_mem hk]; simp

end NS
