import Verif.Spec.DeriveRead
import Verif.Lemmas.DeriveType

/-! The text of parsed types. -/

namespace NS.Derive
open NS

theorem join_eq (sep : Txt) (l : List Txt) : join sep l = sepBy sep l := by
  induction l with
  | nil => rfl
  | cons a l ih =>
    cases l with
    | nil => rfl
    | cons b l => simp only [join, sepBy, ih]

theorem ptype_ref {t : RTy} (h : t.referable) : (ptype t).refTy = none := by
  cases t with
  | path glob segs args => cases args <;> rfl
  | tuple ts => cases ts <;> rfl
  | fnTy k args => rw [ptype_fnTy]; rfl
  | fnRet k args r => rw [ptype_fnRet]; rfl
  | ref | lifetime | never => simp [RTy.referable] at h
  | _ => rfl

theorem full_mk (c w r a) :
    (PType.mk c w r a).full = refPrefix r ++ Cat.path (fullOpt w) c ++ c.argsText (fullOpt w) := by
  rw [PType.full]

/-- `<A,B>`. -/
def argsTxt : Option (List Txt) → Txt
  | none => []
  | some ws => "<".toList ++ join ",".toList ws ++ ">".toList

theorem full_named (p w r a) : (PType.mk (.named p) w r a).full = refPrefix r ++ p ++ argsTxt (fullOpt w) := by
  rw [full_mk, Cat.path]
  cases fullOpt w <;> rfl

theorem full_other {c : Cat} (h : ∀ x, c ≠ .named x) (w r a) :
    (PType.mk c w r a).full = refPrefix r ++ Cat.path (fullOpt w) c := by
  rw [full_mk]
  cases c with
  | named x => exact absurd rfl (h x)
  | _ => simp only [Cat.argsText, List.append_nil]

theorem base_mk (c w r a) : (PType.mk c w r a).base = refPrefix r ++ Cat.path (fullOpt w) c := by
  rw [PType.base]

theorem full_setRef {p : PType} (h : p.refTy = none) (l : Option Txt) :
    (p.setRef (some l)).full = refPrefix (some l) ++ p.full := by
  cases p with
  | mk c w r a =>
    simp only [PType.refTy] at h
    subst h
    simp only [PType.setRef, full_mk, refPrefix, List.nil_append, List.append_assoc]

theorem base_setRef {p : PType} (h : p.refTy = none) (l : Option Txt) :
    (p.setRef (some l)).base = refPrefix (some l) ++ p.base := by
  cases p with
  | mk c w r a =>
    simp only [PType.refTy] at h
    subst h
    simp only [PType.setRef, base_mk, refPrefix, List.nil_append]

theorem showInt_nat (n : Nat) : showInt (n : Int) = showNat n := by
  simp [showInt]

theorem fnKw_name (k : FnKw) : k.ty.name = k.text := by cases k <;> rfl

theorem objKw_txt (d : Bool) : (if d then "dyn ".toList else "impl ".toList) = objKw d ++ " ".toList := by
  cases d <;> rfl

theorem full_noneTy : noneTy.full = [] := by
  rw [noneTy, full_other (by simp), Cat.path]; rfl

mutual
theorem full_ptype : ∀ t : RTy, t.WF → (ptype t).full = t.text
  | .path glob segs [], h => by
    rw [ptype, full_named]
    simp [fullOpt, RTy.text, pref, refPrefix, argsTxt]
  | .path glob segs (a :: as), h => by
    have := full_ptypes (a :: as) h.2
    simp only [ptypes, textList] at this
    rw [ptype, full_named, fullOpt, this, RTy.text]
    simp only [refPrefix, argsTxt, join_eq, pref, List.nil_append, List.append_assoc]
  | .tuple [], h => by
    rw [ptype, full_other (by simp), Cat.path, noneTy]
    simp only [fullList]
    rw [full_other (by simp), Cat.path]
    rfl
  | .tuple (a :: as), h => by
    have := full_ptypes (a :: as) h
    simp only [ptypes] at this
    rw [ptype, full_other (by simp), Cat.path, this, join_eq]
    rfl
  | .arr t n, h => by
    rw [ptype, full_other (by simp), Cat.path, full_ptype t h.1, lenText, CVal.text, showInt_nat, RTy.text]
    simp [refPrefix]
  | .arrConst t segs, h => by
    rw [ptype, full_other (by simp), Cat.path, full_ptype t h.1, lenText, CVal.text, asText, fullOne?, full_named, RTy.text]
    simp [refPrefix, argsTxt, fullOpt, asTxt]
  | .slice t, h => by
    rw [ptype, full_other (by simp), Cat.path, full_ptype t h, lenText, RTy.text]
    simp [refPrefix]
  | .ref l t, h => by
    have := full_ptype t h.1
    rw [ptype, full_setRef (ptype_ref h.2), this]
    cases l <;> simp only [RTy.text, refPrefix, List.append_assoc]
  | .lifetime l, _ => by rw [ptype, full_other (by simp), Cat.path, RTy.text]; rfl
  | .never, _ => by rw [ptype, full_other (by simp), Cat.path, RTy.text]; rfl
  | .proj self tr name, h => by
    rw [ptype, full_other (by simp), Cat.path, full_ptype tr h.2.1, full_named, full_named, RTy.text]
    simp [refPrefix, argsTxt, fullOpt]
  | .fnTy k [], h => by
    rw [ptype_fnTy, full_other (by simp), Cat.path, RTy.text, fnKw_name]
    simp [refPrefix, argTy, fullOne?, full_noneTy, arrow, textList, sepBy]
  | .fnTy k (a :: as), h => by
    have := full_ptypes (a :: as) h.2
    simp only [ptypes, textList, fullList] at this
    obtain rfl : as = [] := by cases as with | nil => rfl | cons b bs => simp [RTy.WF] at h
    rw [ptype_fnTy, full_other (by simp), Cat.path, RTy.text, fnKw_name]
    simp only [textList]
    simp only [ptypes, textList, fullList, List.cons.injEq, and_true] at this
    simp [refPrefix, argTy, fullOne?, arrow, sepBy, this]
  | .fnRet k [] r, h => by
    rw [ptype_fnRet, full_other (by simp), Cat.path, RTy.text, fnKw_name]
    have := full_ptype r h.2.2
    simp [refPrefix, argTy, fullOne?, full_noneTy, arrow, textList, sepBy, this]
  | .fnRet k (a :: as) r, h => by
    have := full_ptypes (a :: as) h.2.1
    have hr := full_ptype r h.2.2
    simp only [ptypes, textList, fullList] at this
    obtain rfl : as = [] := by cases as with | nil => rfl | cons b bs => simp [RTy.WF] at h
    rw [ptype_fnRet, full_other (by simp), Cat.path, RTy.text, fnKw_name]
    simp only [textList]
    simp only [ptypes, textList, fullList, List.cons.injEq, and_true] at this
    simp [refPrefix, argTy, fullOne?, arrow, sepBy, this, hr]
  | .obj d b bs, h => by
    have := full_ptypes bs h.2.1
    have hb := full_ptype b h.1
    rw [ptype, full_other (by simp), Cat.path, RTy.text, objKw_txt, fullList, this, hb, join_eq]
    rfl
  | .assoc glob segs name t, h => by
    have := full_ptype t h.2.2
    rw [ptype, full_other (by simp), Cat.path, RTy.text, this, fullOpt, fullList, full_named]
    simp [refPrefix, argsTxt, fullOpt, pref]
theorem full_ptypes : ∀ ts : List RTy, WFList ts → fullList (ptypes ts) = textList ts
  | [], _ => by rw [ptypes, fullList, textList]
  | t :: ts, h => by
    rw [ptypes, fullList, textList, full_ptype t h.1, full_ptypes ts h.2]
end

theorem base_full {p : PType} (h : ∀ x, p.cat ≠ .named x) : p.base = p.full := by
  cases p with
  | mk c w r a =>
    cases c with
    | named x => exact absurd rfl (h x)
    | _ => rw [base_mk, full_other (by simp)]

theorem base_ptype : ∀ t : RTy, t.WF → (ptype t).base = t.head
  | .path glob segs args, h => by
    cases args <;> rw [ptype, base_mk, Cat.path] <;> rfl
  | .ref l t, h => by
    have := base_ptype t h.1
    rw [ptype, base_setRef (ptype_ref h.2), this]
    cases l <;> simp only [RTy.head, refPrefix, List.append_assoc]
  | .tuple ts, h => by
    rw [base_full (by cases ts <;> simp [ptype, PType.cat]), full_ptype _ h, RTy.head]
    all_goals simp
  | .arr t n, h => by
    rw [base_full (by simp [ptype, PType.cat]), full_ptype _ h, RTy.head]
    all_goals simp
  | .arrConst t segs, h => by
    rw [base_full (by simp [ptype, PType.cat]), full_ptype _ h, RTy.head]
    all_goals simp
  | .slice t, h => by
    rw [base_full (by simp [ptype, PType.cat]), full_ptype _ h, RTy.head]
    all_goals simp
  | .lifetime l, h => by
    rw [base_full (by simp [ptype, PType.cat]), full_ptype _ h, RTy.head]
    all_goals simp
  | .never, h => by
    rw [base_full (by simp [ptype, PType.cat]), full_ptype _ h, RTy.head]
    all_goals simp
  | .proj self tr name, h => by
    rw [base_full (by simp [ptype, PType.cat]), full_ptype _ h, RTy.head]
    all_goals simp
  | .fnTy k args, h => by
    rw [base_full (by rw [ptype_fnTy]; simp [PType.cat]), full_ptype _ h, RTy.head]
    all_goals simp
  | .fnRet k args r, h => by
    rw [base_full (by rw [ptype_fnRet]; simp [PType.cat]), full_ptype _ h, RTy.head]
    all_goals simp
  | .obj d b bs, h => by
    rw [base_full (by simp [ptype, PType.cat]), full_ptype _ h, RTy.head]
    all_goals simp
  | .assoc glob segs name t, h => by
    rw [base_full (by simp [ptype, PType.cat]), full_ptype _ h, RTy.head]
    all_goals simp

theorem base_ptypes {ts : List RTy} (h : WFList ts) : (ts.map ptype).map PType.base = ts.map RTy.head := by
  rw [List.map_map]
  apply List.map_congr_left
  intro t ht
  exact base_ptype t ((WFList_iff ts).1 h t ht)

theorem parts_ptype : ∀ t : RTy, t.WF → ∀ x, IdentLike x →
    (x ∈ ((ptype t).wraps.getD []).map PType.base ↔ x ∈ t.parts.map RTy.head)
  | .path glob segs [], _, x, _ => by simp [ptype, PType.wraps, RTy.parts]
  | .path glob segs (a :: as), h, x, _ => by
    have := base_ptypes h.2
    have e : (ptype (.path glob segs (a :: as))).wraps = some ((a :: as).map ptype) := by
      simp [ptype, PType.wraps, ptypes_eq]
    rw [e, Option.getD_some, this]; rfl
  | .tuple [], _, x, hx => by
    have : x ≠ [] := by rintro rfl; exact hx
    have e : noneTy.base = [] := by rw [noneTy, base_mk, Cat.path]; rfl
    simp [ptype, PType.wraps, RTy.parts, e, this]
  | .tuple (a :: as), h, x, _ => by
    have := base_ptypes h
    have e : (ptype (.tuple (a :: as))).wraps = some ((a :: as).map ptype) := by
      simp [ptype, PType.wraps, ptypes_eq]
    rw [e, Option.getD_some, this]; rfl
  | .arr t n, h, x, _ => by simp [ptype, PType.wraps, RTy.parts, base_ptype t h.1]
  | .arrConst t segs, h, x, _ => by simp [ptype, PType.wraps, RTy.parts, base_ptype t h.1]
  | .slice t, h, x, _ => by simp [ptype, PType.wraps, RTy.parts, base_ptype t h]
  | .ref l t, h, x, hx => by
    have := parts_ptype t h.1 x hx
    have e : (ptype (.ref l t)).wraps = (ptype t).wraps := by
      rw [ptype]; cases ptype t; rfl
    rw [e, this]; rfl
  | .lifetime l, _, x, _ => by simp [ptype, PType.wraps, RTy.parts]
  | .never, _, x, _ => by simp [ptype, PType.wraps, RTy.parts]
  | .proj self tr name, _, x, _ => by simp [ptype, PType.wraps, RTy.parts]
  | .fnTy k [], _, x, _ => by
    rw [ptype_fnTy]
    cases k <;> simp [PType.wraps, RTy.parts, partsList, argTy, noneTy, fnWraps]
  | .fnTy k (a :: as), h, x, hx => by
    obtain rfl : as = [] := by cases as with | nil => rfl | cons b bs => simp [RTy.WF] at h
    have ih := parts_ptype a h.2.1 x hx
    have e : ((ptype (.fnTy k [a])).wraps.getD []) = (ptype a).wraps.getD [] := by
      rw [ptype_fnTy]
      show Option.getD (if _ then _ else _) _ = _
      cases hw : (ptype a).wraps <;> cases k <;> simp [argTy, fnWraps, hw]
    rw [e, ih]
    simp [RTy.parts, partsList]
  | .fnRet k [] r, h, x, hx => by
    have ih := parts_ptype r h.2.2 x hx
    rw [ptype_fnRet]
    simpa [PType.wraps, RTy.parts, partsList, argTy, noneTy, fnWraps] using ih
  | .fnRet k (a :: as) r, h, x, hx => by
    obtain rfl : as = [] := by cases as with | nil => rfl | cons b bs => simp [RTy.WF] at h
    have ih := parts_ptype a h.2.1.1 x hx
    have ih2 := parts_ptype r h.2.2 x hx
    have e : ((ptype (.fnRet k [a] r)).wraps.getD []) = (ptype r).wraps.getD [] ++ (ptype a).wraps.getD [] := by
      rw [ptype_fnRet]; rfl
    rw [e, List.map_append, List.mem_append, ih, ih2]
    simp [RTy.parts, partsList]
  | .obj d b bs, h, x, hx => by
    have ih := parts_ptype b h.1 x hx
    rw [ptype]
    exact ih
  | .assoc glob segs name t, _, x, _ => by
    have e : (PType.mk (.named name) none none none).base = name := by rw [base_mk, Cat.path]; rfl
    simp [ptype, PType.wraps, RTy.parts, RTy.head, e, segText, sepBy]

theorem typeRead {t : RTy} (h : t.WF) : TypeRead t (ptype t) :=
  ⟨full_ptype t h, base_ptype t h, parts_ptype t h⟩

end NS.Derive
