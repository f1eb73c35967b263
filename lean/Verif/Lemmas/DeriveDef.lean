import Verif.Lemmas.DeriveItem
import Verif.Spec.DeriveDef

/-!
# From parsed trees to definitions
-/

namespace NS.Derive
open NS

theorem attrValue_words (key : Txt) (os : List ROpt) : attrValue key (os.map ROpt.words) = firstVal key os := by
  induction os with
  | nil => rfl
  | cons o os ih =>
    unfold attrValue firstVal at ih ⊢
    cases o with
    | flag n => simpa [ROpt.words] using ih
    | val n v =>
      by_cases h : n = key
      · simp [ROpt.words, h]
      · simpa [ROpt.words, h] using ih

theorem attrFlag_words (key : Txt) (os : List ROpt) : attrFlag key (os.map ROpt.words) = hasFlag key os := by
  unfold attrFlag hasFlag
  rw [List.any_map]
  congr 1
  funext o
  cases o <;> simp [ROpt.words]

theorem attrsDefault_words (os : List ROpt) : attrsDefault (os.map ROpt.words) = firstDefault os := by
  unfold attrsDefault firstDefault
  generalize "default".toList = key
  induction os with
  | nil => rfl
  | cons o os ih =>
    cases o with
    | flag n =>
      by_cases h : n = key
      · simp [ROpt.words, h]
      · simpa [ROpt.words, h] using ih
    | val n v =>
      by_cases h : n = key
      · simp [ROpt.words, h]
      · simpa [ROpt.words, h] using ih

theorem isOption_base {t : RTy} {p : PType} (h : TypeRead t p) : (p.base = "Option".toList) = (t.isOption = true) := by
  simp [RTy.isOption, h.2.1]

theorem identLike_string : IdentLike "String".toList := by
  show IdentLike ['S', 't', 'r', 'i', 'n', 'g']
  exact ⟨by decide, by decide⟩

theorem any_string {t : RTy} {p : PType} (h : TypeRead t p) :
    (p.wraps.getD []).any (fun t => t.base = "String".toList) = t.parts.any fun u => u.head = "String".toList := by
  have := h.2.2 "String".toList identLike_string
  rw [Bool.eq_iff_iff, List.any_eq_true, List.any_eq_true]
  simp only [List.mem_map, decide_eq_true_eq] at this ⊢
  exact this

theorem jsonDefault_read {as : List RAttr} {t : RTy} {f : PField} (ha : f.attributes = words as) (h : TypeRead t f.ty) :
    jsonDefault f = defaultText RTy.mentionsString (optsOf as) t := by
  unfold jsonDefault defaultText
  rw [ha, words, attrsDefault_words]
  cases hd : firstDefault (optsOf as) with
  | none =>
    simp only [attrsDefaultWith, attrValue_words]
    cases firstVal "default_with".toList (optsOf as) <;> rfl
  | some d =>
    cases d with
    | none =>
      simp only [ne_eq, isOption_base h]
      cases t.isOption <;> simp
    | some v =>
      have b1 : (f.ty.base = "String".toList ∨ (f.ty.wraps.getD []).any (fun t => t.base = "String".toList) = true) ↔
          t.mentionsString = true := by
        rw [RTy.mentionsString, decide_eq_true_eq, h.2.1, any_string h]
      have b2 : f.ty.base = "Option".toList ↔ t.isOption = true := by rw [isOption_base h]
      dsimp only
      by_cases hm : t.mentionsString = true <;> by_cases ho : t.isOption = true
      · rw [if_pos (b1.2 hm), if_pos (b2.2 ho), if_pos hm, if_pos ho]; rfl
      · rw [if_pos (b1.2 hm), if_neg (mt b2.1 ho), if_pos hm, if_neg ho]; rfl
      · rw [if_neg (mt b1.1 hm), if_pos (b2.2 ho), if_neg hm, if_pos ho]; rfl
      · rw [if_neg (mt b1.1 hm), if_neg (mt b2.1 ho), if_neg hm, if_neg ho]

theorem ronDefault_read {as : List RAttr} {t : RTy} {f : PField} (ha : f.attributes = words as) (h : TypeRead t f.ty) :
    ronDefault f = defaultText (textType .ron) (optsOf as) t := by
  unfold ronDefault defaultText
  rw [ha, words, attrsDefault_words]
  cases hd : firstDefault (optsOf as) with
  | none =>
    simp only [attrsDefaultWith, attrValue_words]
    cases firstVal "default_with".toList (optsOf as) <;> rfl
  | some d =>
    cases d with
    | none =>
      simp only [ne_eq, isOption_base h]
      cases t.isOption <;> simp
    | some v =>
      have b1 : f.ty.base = "String".toList ↔ textType .ron t = true := by
        rw [textType, decide_eq_true_eq, h.2.1]
      have b2 : f.ty.base = "Option".toList ↔ t.isOption = true := by rw [isOption_base h]
      dsimp only
      by_cases hm : textType .ron t = true <;> by_cases ho : t.isOption = true
      · have := (b1.2 hm).symm.trans (b2.2 ho)
        exact absurd this (by decide)
      · rw [if_pos (b1.2 hm), if_pos hm, if_neg ho]; rfl
      · rw [if_neg (mt b1.1 hm), if_pos (b2.2 ho), if_neg hm, if_pos ho]; rfl
      · rw [if_neg (mt b1.1 hm), if_neg (mt b2.1 ho), if_neg hm, if_neg ho]

theorem elabTy_read (N : Names) (fmt : Fmt) {as : List RAttr} {t : RTy} {f : PField} (ha : f.attributes = words as)
    (h : TypeRead t f.ty) : elabTy N fmt f = fieldTy N fmt (optsOf as) t := by
  unfold elabTy fieldTy
  rw [ha, words, attrsProxy, attrValue_words, h.1]
  simp only [isOption_base h]
  cases fmt <;> cases firstVal "proxy".toList (optsOf as) <;> rfl

theorem elabField_read (N : Names) (fmt : Fmt) {r : RField} {f : PField} (h : FieldRead r f) :
    elabField N fmt f = r.toDef N fmt := by
  obtain ⟨ha, hn, ht⟩ := h
  unfold elabField RField.toDef
  have hj := jsonDefault_read ha ht
  have hr := ronDefault_read ha ht
  rw [hn, elabTy_read N fmt ha ht, ht.1]
  simp only [attrsRename, attrsSkip, attrsNoneAsNull, attrsProxy, ha, words, attrValue_words, attrFlag_words,
    isOption_base ht, RField.opts, Option.getD_some, hj, hr]
  cases fmt <;> simp <;> rfl

theorem elabTupleTy_read (N : Names) (fmt : Fmt) {r : RTField} {f : PField} (h : TFieldRead r f) :
    elabTupleTy N fmt f = r.toTy N fmt := by
  obtain ⟨ha, _, ht⟩ := h
  unfold elabTupleTy RTField.toTy
  cases fmt with
  | bin => exact elabTy_read N .bin ha ht
  | json => rw [ht.1]
  | ron => rw [ht.1]

theorem elabVariantField_read (N : Names) (fmt : Fmt) {r : RField} {f : PField} (h : FieldRead r f) :
    elabVariantField N fmt f = r.toVariantDef N fmt := by
  unfold elabVariantField RField.toVariantDef
  cases fmt with
  | bin => simp only; rw [elabField_read N .bin h, h.2.2.1]
  | json => exact elabField_read N .json h
  | ron => exact elabField_read N .ron h

theorem map_matching {α β γ : Type} {R : α → β → Prop} {l : List α} {m : List β} (h : Matching R l m) {f : β → γ} {g : α → γ}
    (hfg : ∀ a b, R a b → f b = g a) : m.map f = l.map g := by
  induction h with
  | nil => rfl
  | cons hx _ ih => simp [hfg _ _ hx, ih]

theorem elabShape_read (N : Names) (fmt : Fmt) {v : RVariant} {p : PField} (h : VariantRead v p) :
    elabShape N fmt p.ty = some (v.shape.toDef N fmt) := by
  have h3 := h.2.2
  unfold elabShape
  cases hs : v.shape with
  | unit => rw [hs] at h3; rw [h3.1, h3.2]; rfl
  | disc t => rw [hs] at h3; rw [h3.1, h3.2]; rfl
  | tuple ts =>
    rw [hs] at h3
    obtain ⟨ps, hc, hm⟩ := h3
    rw [hc]
    simp only [RShape.toDef]
    rw [map_matching hm (g := fun t => N.ty t.text) fun a b hab => by simp [hab.1]]
  | named fs tr =>
    rw [hs] at h3
    obtain ⟨s, hc, hm⟩ := h3
    rw [hc]
    simp only [RShape.toDef]
    rw [map_matching hm fun a b hab => elabVariantField_read N fmt hab]

theorem elabVariant_read (N : Names) (fmt : Fmt) {v : RVariant} {p : PField} (h : VariantRead v p) :
    elabVariant N fmt p = some (v.toDef N fmt) := by
  unfold elabVariant RVariant.toDef
  rw [elabShape_read N fmt h, h.1, h.2.1, words, attrsRename, attrValue_words]
  rfl

theorem allSome_map {α β : Type} (f : α → β) (l : List α) : allSome (l.map fun x => some (f x)) = some (l.map f) := by
  induction l with
  | nil => rfl
  | cons a l ih => simp [allSome, ih]

theorem elabEnum_read (N : Names) (fmt : Fmt) {vs : List RVariant} {e : PEnum} (h : Matching VariantRead vs e.variants) :
    elabData N fmt (.enum e) = some (.enum (vs.map (RVariant.toDef N fmt))) := by
  show Option.map Def.enum (allSome (e.variants.map (elabVariant N fmt))) = _
  rw [map_matching h (f := elabVariant N fmt) (g := fun v => some (v.toDef N fmt)) fun a b hab => elabVariant_read N fmt hab, allSome_map]
  rfl

theorem elabStruct_read (N : Names) (fmt : Fmt) {s : RStruct} {p : PStruct} (ha : p.attributes = words s.attrs)
    (hb : BodyRead s.body p) : elabStruct N fmt p = s.toDef N fmt := by
  unfold elabStruct RStruct.toDef
  unfold BodyRead at hb
  rw [ha, words]
  simp only [attrsNoneAsNull, attrsTransparent, attrFlag_words, attrsDefault_words, attrsDefaultWith, attrValue_words]
  cases hbody : s.body with
  | unit => rw [hbody] at hb; simp [hb.1, hb.2]
  | tuple fs tr =>
    rw [hbody] at hb
    rw [hb.1]
    simp only [Bool.false_eq_true, if_false]
    rw [map_matching hb.2 fun a b hab => elabTupleTy_read N fmt hab]
  | named fs tr =>
    rw [hbody] at hb
    rw [hb.1]
    simp only [if_true]
    rw [map_matching hb.2 fun a b hab => elabField_read N fmt hab]
    cases fmt <;> simp

end NS.Derive
