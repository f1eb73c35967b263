import Verif.Lemmas.GenDeRon

/-!
# From a declaration to the constructors and fields of the parsed item
-/

namespace NS.Derive
open NS

theorem read_fieldTys {fs : List RField} {ps : List PField} (h : Matching FieldRead fs ps) :
    (ps.map fun f => (f.nm, f.ty.full)) = fieldTys fs :=
  map_matching h fun a b hab => by rw [PField.nm, hab.2.1, hab.2.2.1]; rfl

theorem read_compTys {fs : List RTField} {ps : List PField} (h : Matching TFieldRead fs ps) : ∀ (k : Nat),
    numbered (fun f : PField => f.ty.full) k ps = compTys k (fs.map (·.ty)) := by
  induction h with
  | nil => intro k; rfl
  | cons hab _ ih =>
    intro k
    rw [numbered, List.zipIdx_cons, List.map_cons, List.map_cons, compTys, ← ih, hab.2.2.1]
    rfl

theorem compTys_snd : ∀ (ts : List RTy) (k : Nat), (compTys k ts).map Prod.snd = ts.map RTy.text := by
  intro ts
  induction ts with
  | nil => intro k; rfl
  | cons t ts ih => intro k; rw [compTys, List.map_cons, List.map_cons, ih]

theorem read_proxyRd {env : Env} {N : Names} {f : RField} {p : PField} (h : FieldRead f p) (hf : ProxyFits env N f.opts f.ty) :
    ProxyRd env N p := by
  intro q hq
  rw [h.2.2.1]
  exact hf q (by rw [← read_proxy h]; exact hq)

theorem read_tproxyRd {env : Env} {N : Names} {f : RTField} {p : PField} (h : TFieldRead f p)
    (hf : ProxyFits env N (optsOf f.attrs) f.ty) : ProxyRd env N p := by
  intro q hq
  rw [h.2.2.1]
  refine hf q ?_
  rw [← hq, h.1, words, attrsProxy, attrValue_words]

theorem read_targetOf {v : RVariant} {p : PField} (h : VariantRead v p) (j : Nat) : TargetOf j p (v.target j) := by
  obtain ⟨_, _, h⟩ := h
  unfold TargetOf RVariant.target
  cases hs : v.shape with
  | unit => rw [hs] at h; rw [h.1]; exact ⟨rfl, rfl⟩
  | disc => rw [hs] at h; rw [h.1]; exact ⟨rfl, rfl⟩
  | tuple ts =>
    rw [hs] at h
    obtain ⟨ps, hc, hm⟩ := h
    rw [hc]
    refine ⟨rfl, ?_, rfl⟩
    simp only [compTys_snd]
    exact (map_matching hm fun a b hab => hab.1).symm
  | named fs tr =>
    rw [hs] at h
    obtain ⟨s, hc, hm⟩ := h
    rw [hc]
    simp only [read_fieldTys hm]

theorem findIdx_unique {β : Type} {p : β → Bool} : ∀ {l : List β} {j : Nat} {b : β}, l[j]? = some b → p b = true →
    (∀ i c, l[i]? = some c → p c = true → i = j) → l.findIdx? p = some j := by
  intro l j b hj hp hu
  rw [List.findIdx?_eq_some_iff_getElem]
  obtain ⟨hlt, he⟩ := List.getElem?_eq_some_iff.1 hj
  refine ⟨hlt, by rw [he]; exact hp, fun i hi hc => ?_⟩
  have := hu i _ (List.getElem?_eq_getElem (by omega)) hc
  omega

theorem names_at {β : Type} {nm : β → Txt} {l : List β} (hd : (l.map nm).Pairwise (· ≠ ·)) {i j : Nat} {f g : β}
    (hi : l[i]? = some f) (hj : l[j]? = some g) (he : nm f = nm g) : i = j := by
  rw [List.pairwise_iff_getElem] at hd
  obtain ⟨h1, h1'⟩ := List.getElem?_eq_some_iff.1 hi
  obtain ⟨h2, h2'⟩ := List.getElem?_eq_some_iff.1 hj
  rcases Nat.lt_trichotomy i j with h | h | h
  · exact absurd (by rw [List.getElem_map, List.getElem_map, h1', h2', he])
      (hd i j (by simpa using h1) (by simpa using h2) h)
  · exact h
  · exact absurd (by rw [List.getElem_map, List.getElem_map, h1', h2', he])
      (hd j i (by simpa using h2) (by simpa using h1) h)

theorem enum_target {e : REnum} (hd : DistinctNames (e.variants.map (·.name))) {j : Nat} {v : RVariant}
    (hj : e.variants[j]? = some v) {x : Txt} (hx : x = "Self".toList ∨ x = e.name) :
    e.target [x, v.name] = some (v.target j) := by
  unfold REnum.target
  rw [findIdx_unique hj]
  · rw [Option.bind_some, hj]; rfl
  · rcases hx with rfl | rfl <;> simp
  · intro i c hi hc
    refine names_at hd hi hj ?_
    simp only [decide_eq_true_eq, List.cons.injEq, and_true] at hc
    rcases hc with hc | hc <;> exact hc.2.symm

theorem read_vdistinct {fs : List RVariant} {ps : List PField} (h : Matching VariantRead fs ps)
    (hd : ∀ v ∈ fs, match v.shape with
      | .named fs _ => DistinctNames (fs.map (·.name))
      | _ => True) : ∀ w ∈ ps, ∀ s, w.ty.cat = .anonymous s → (s.fields.map PField.nm).Pairwise (· ≠ ·) := by
  intro w hw s hc
  obtain ⟨v, hv, hr⟩ := matching_mem h w hw
  have hfv := hd v hv
  obtain ⟨_, _, h⟩ := hr
  cases hsh : v.shape with
  | unit => rw [hsh] at h; rw [h.1] at hc; cases hc
  | disc => rw [hsh] at h; rw [h.1] at hc; cases hc
  | tuple ts => rw [hsh] at h; obtain ⟨_, h, _⟩ := h; rw [h] at hc; cases hc
  | named fs tr =>
    rw [hsh] at h hfv
    obtain ⟨s', h, hm⟩ := h
    rw [h] at hc
    cases hc
    rw [read_names hm]; exact hfv

theorem read_vproxies {env : Env} {N : Names} {e : REnum} {ps : List PField} (h : Matching VariantRead e.variants ps)
    (hf : e.ProxiesFit env N) : ∀ w ∈ ps, ∀ s, w.ty.cat = .anonymous s → ∀ f ∈ s.fields, ProxyRd env N f := by
  intro w hw s hc f hfs
  obtain ⟨v, hv, hr⟩ := matching_mem h w hw
  have hfv := hf v hv
  obtain ⟨_, _, h⟩ := hr
  cases hsh : v.shape with
  | unit => rw [hsh] at h; rw [h.1] at hc; cases hc
  | disc => rw [hsh] at h; rw [h.1] at hc; cases hc
  | tuple ts => rw [hsh] at h; obtain ⟨_, h, _⟩ := h; rw [h] at hc; cases hc
  | named fs tr =>
    rw [hsh] at h hfv
    obtain ⟨s', h, hm⟩ := h
    rw [h] at hc
    cases hc
    obtain ⟨r, hr, hrr⟩ := matching_mem hm f hfs
    exact read_proxyRd hrr (hfv r hr)

theorem matching_get' {α β : Type} {R : α → β → Prop} {l : List α} {m : List β} (h : Matching R l m) :
    ∀ {j : Nat} {b : β}, m[j]? = some b → ∃ a, l[j]? = some a ∧ R a b := by
  induction h with
  | nil => intro j a hb; simp at hb
  | cons hab _ ih =>
    intro j a hj
    cases j with
    | zero => simp only [List.getElem?_cons_zero, Option.some.injEq] at hj; subst hj; exact ⟨_, rfl, hab⟩
    | succ j => exact ih (by simpa using hj)

/-- The constructors of an enum, seen from the parsed item. -/
theorem read_vtargets {e : REnum} {p : PEnum} (hv : Matching VariantRead e.variants p.variants) (hn : p.name = e.name)
    (hd : DistinctNames (e.variants.map (·.name))) : ∀ j w, p.variants[j]? = some w →
    ∃ t, e.target (selfVar w.nm) = some t ∧ e.target [p.name, w.nm] = some t ∧ TargetOf j w t := by
  intro j w hj
  obtain ⟨v, hv', hr⟩ := matching_get' hv hj
  have hnm : w.nm = v.name := by rw [PField.nm, hr.2.1]; rfl
  refine ⟨v.target j, ?_, ?_, read_targetOf hr j⟩
  · rw [selfVar, hnm]; exact enum_target hd hv' (Or.inl rfl)
  · rw [hn, hnm]; exact enum_target hd hv' (Or.inr rfl)

end NS.Derive
