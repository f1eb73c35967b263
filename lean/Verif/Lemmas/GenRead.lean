import Verif.Spec.GenCode
import Verif.Lemmas.GenWriteItem
import Verif.Lemmas.DeriveDef

/-!
# From a declaration to the parsed item the generators start from
-/

namespace NS.Derive
open NS

theorem matching_mem {α β : Type} {R : α → β → Prop} {l : List α} {m : List β} (h : Matching R l m) :
    ∀ b ∈ m, ∃ a ∈ l, R a b := by
  induction h with
  | nil => intro b hb; simp at hb
  | cons hab _ ih =>
    intro b hb
    rcases List.mem_cons.1 hb with rfl | hb
    · exact ⟨_, List.mem_cons_self .., hab⟩
    · obtain ⟨a, ha, hr⟩ := ih b hb
      exact ⟨a, List.mem_cons_of_mem _ ha, hr⟩

theorem matching_get {α β : Type} {R : α → β → Prop} {l : List α} {m : List β} (h : Matching R l m) :
    ∀ {j : Nat} {a : α}, l[j]? = some a → ∃ b, m[j]? = some b ∧ R a b := by
  induction h with
  | nil => intro j a hb; simp at hb
  | cons hab _ ih =>
    intro j a hj
    cases j with
    | zero => simp only [List.getElem?_cons_zero, Option.some.injEq] at hj; subst hj; exact ⟨_, rfl, hab⟩
    | succ j => exact ih (by simpa using hj)

theorem read_names {fs : List RField} {ps : List PField} (h : Matching FieldRead fs ps) :
    ps.map PField.nm = fs.map (·.name) :=
  map_matching h fun a b hab => by rw [PField.nm, hab.2.1]; rfl

theorem read_vnames {fs : List RVariant} {ps : List PField} (h : Matching VariantRead fs ps) :
    ps.map PField.nm = fs.map (·.name) :=
  map_matching h fun a b hab => by rw [PField.nm, hab.2.1]; rfl

theorem read_fieldVals (N : Names) {fs : List RField} {ps : List PField} (h : Matching FieldRead fs ps) (vs : List Val) :
    List.zipWith (fieldTV N) ps vs = fieldVals N fs vs := by
  induction h generalizing vs with
  | nil => rfl
  | cons hab _ ih =>
    cases vs with
    | nil => rfl
    | cons v vs =>
      rw [fieldVals, List.zipWith_cons_cons, List.zipWith_cons_cons, ih]
      rw [fieldTV, hab.2.1, hab.2.2.1]
      rfl

theorem read_compVals (N : Names) {ts : List RTy} {ps : List PType} (h : Matching TypeRead ts ps) (vs : List Val) (n : Nat) :
    tupleTV N n ps vs = compVals N n ts vs := by
  induction h generalizing vs n with
  | nil => cases vs <;> rfl
  | cons hab _ ih =>
    cases vs with
    | nil => rfl
    | cons v vs => rw [tupleTV, compVals, ih, hab.1]

theorem read_tys {fs : List RTField} {ps : List PField} (h : Matching TFieldRead fs ps) :
    Matching TypeRead (fs.map (·.ty)) (ps.map (·.ty)) := by
  induction h with
  | nil => exact .nil
  | cons hab _ ih => exact .cons hab.2.2 ih

theorem read_option {f : RField} {p : PField} (h : FieldRead f p) : p.ty.base = "Option".toList ↔ f.ty.isOption = true := by
  rw [h.2.2.2.1, RTy.isOption]
  simp

theorem read_proxy {f : RField} {p : PField} (h : FieldRead f p) : attrsProxy p.attributes = firstVal "proxy".toList f.opts := by
  rw [h.1, words, attrsProxy, attrValue_words]; rfl

theorem read_fits {env : Env} {N : Names} {f : RField} {p : PField} (h : FieldRead f p) (hf : f.Fits env N) :
    OptionIs N p ∧ ProxyIs env N p := by
  refine ⟨fun hb => ?_, fun q hq => ?_⟩
  · rw [h.2.2.1]; exact hf.1 ((read_option h).1 hb)
  · rw [h.2.2.1]; exact hf.2 q (by rw [← read_proxy h]; exact hq)

theorem read_varOK {fmt : Fmt} {v : RVariant} {p : PField} (h : VariantRead v p) (hw : v.Writable fmt) : VarOK fmt p := by
  obtain ⟨_, _, h⟩ := h
  unfold RVariant.Writable at hw
  unfold VarOK
  cases hs : v.shape with
  | unit => rw [hs] at h; rw [h.1]; trivial
  | disc => rw [hs] at h; rw [h.1]; trivial
  | tuple ts =>
    rw [hs] at h hw
    obtain ⟨ps, hc, hm⟩ := h
    rw [hc]
    refine hw.imp_right fun hne => ?_
    rintro rfl
    cases hm
    exact hne rfl
  | named fs tr =>
    rw [hs] at h hw
    obtain ⟨s, hc, hm⟩ := h
    rw [hc]
    simp only [read_names hm]
    refine ⟨hw.1, hw.2.1, hw.2.2.1, fun hj q hq => ?_⟩
    obtain ⟨f, hf, hr⟩ := matching_mem hm q hq
    rcases hw.2.2.2 hj f hf with h | h
    · exact Or.inl (by rw [read_proxy hr]; exact h)
    · exact Or.inr ((read_option hr).2 h)

theorem read_vvalue (N : Names) {v : RVariant} {p : PField} (h : VariantRead v p) (vs : List Val) :
    variantSelf N p vs = v.value N vs := by
  obtain ⟨_, hn, h⟩ := h
  unfold variantSelf RVariant.value
  rw [hn]
  cases hs : v.shape with
  | unit => rw [hs] at h; rw [h.1]; rfl
  | disc => rw [hs] at h; rw [h.1]; rfl
  | tuple ts =>
    rw [hs] at h
    obtain ⟨ps, hc, hm⟩ := h
    rw [hc]
    simp only [read_compVals N hm]; rfl
  | named fs tr =>
    rw [hs] at h
    obtain ⟨s, hc, hm⟩ := h
    rw [hc]
    simp only [read_fieldVals N hm]; rfl

theorem read_vfits {env : Env} {N : Names} {e : REnum} {ps : List PField} (h : Matching VariantRead e.variants ps)
    (hf : e.Fits env N) : ∀ w ∈ ps, ∀ s, w.ty.cat = .anonymous s → ∀ f ∈ s.fields, OptionIs N f ∧ ProxyIs env N f := by
  intro w hw s hc f hfs
  obtain ⟨v, hv, hr⟩ := matching_mem h w hw
  have hfv := hf v hv
  obtain ⟨_, _, h⟩ := hr
  cases hsh : v.shape with
  | unit => rw [hsh] at h; rw [h.1] at hc; cases hc
  | disc => rw [hsh] at h; rw [h.1] at hc; cases hc
  | tuple ts => rw [hsh] at h; obtain ⟨_, h, _⟩ := h; rw [h] at hc; cases hc
  | named fs tr =>
    rw [hsh] at h hfv
    obtain ⟨s', h, hm⟩ := h
    rw [h] at hc
    cases hc
    obtain ⟨r, hr, hrr⟩ := matching_mem hm f hfs
    exact read_fits hrr (hfv r hr)

end NS.Derive
