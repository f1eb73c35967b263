import Verif.Lemmas.JsonShapes
import Verif.Spec.JsonShape
/-! Enums as JSON values. -/
namespace NS
variable {env : Env} {fl : FloatOps}

theorem fixed_wf {T : Ty} (hT : TyWf env T) {ts : List Ty} (h : FixedArity T ts) : ∀ t ∈ ts, TyWf env t := by
  intro t ht
  cases h with
  | array t' n => rw [List.mem_replicate] at ht; rw [ht.2]; exact hT
  | pair =>
    simp only [TyWf] at hT; simp at ht
    rcases ht with rfl | rfl
    · exact hT.1
    · exact hT.2
  | triple =>
    simp only [TyWf] at hT; simp at ht
    rcases ht with rfl | rfl | rfl
    · exact hT.1
    · exact hT.2.1
    · exact hT.2.2
  | quad =>
    simp only [TyWf] at hT; simp at ht
    rcases ht with rfl | rfl | rfl | rfl
    · exact hT.1
    · exact hT.2.1
    · exact hT.2.2.1
    · exact hT.2.2.2

theorem den_fixed (hw : ProgWf env) (hp : Productive env) {T : Ty} (hT : TyWf env T) {ts : List Ty} (h : FixedArity T ts)
    (J : JTree) : den env fl T (some J) = (decTuple (den env fl) ts (some J)).bind fun vs => .ok (.seq vs) := by
  have hts := fixed_wf hT h
  refine den_eq hw hp hT ((den_tuple_ev (fl := fl) hw hp hts (some J)).mono fun n hn => ?_)
  rw [← hn]
  cases h <;> rfl

theorem decShape_ev (hw : ProgWf env) (hp : Productive env) {i : Nat} {vars} (hd : env.defs[i]? = some (.enum vars))
    {v : Variant} (hv : v ∈ vars) (J : JTree) :
    Ev fun n => decShape (decode env fl n) J v.shape = decShape (den env fl) J v.shape := by
  obtain ⟨nm, rn, sh⟩ := v
  have hwf : ∀ t ∈ (match sh with | .unit => ([] : List Ty) | .tuple ts => ts | .named fs => fs.map (fun f : Field => f.ty)), TyWf env t := by
    intro t ht
    refine Def.wf_of hw hd t ?_
    simp only [Def.tys, List.mem_flatMap]
    exact ⟨_, hv, ht⟩
  cases sh with
  | unit => exact .of fun _ => rfl
  | tuple ts => exact den_tuple_ev hw hp hwf (some J)
  | named fs => exact den_named_ev hw hp (fun f hf => hwf _ (List.mem_map_of_mem hf)) J

/-- The members of an object. -/
def JTree.members : JTree → List (JTree × JTree)
  | .obj ms _ => ms
  | _ => []

theorem den_enum (hw : ProgWf env) (hp : Productive env) {i : Nat} {vars} (hd : env.defs[i]? = some (.enum vars)) (J : JTree) :
    den env fl (.named i) (some J) = decEnum (den env fl) vars (some J) := by
  have key : Ev fun n => ∀ m ∈ J.members, ∀ v ∈ vars,
      decShape (decode env fl n) m.2 v.shape = decShape (den env fl) m.2 v.shape :=
    Ev.list _ fun m _ => Ev.list vars fun v hv => decShape_ev hw hp hd hv m.2
  refine den_eq hw hp (t := .named i) (show TyWf env (.named i) from def_lt hd) (key.mono fun n hn => ?_)
  simp only [decode, hd]
  cases J with
  | obj ms tr =>
    cases ms with
    | nil => rfl
    | cons m ms =>
      obtain ⟨k, J⟩ := m
      have h0 := hn (k, J) (List.mem_cons_self ..)
      cases k with
      | str k =>
        have hc : ∀ j, findVariant vars false k = some j →
            decShape (decode env fl n) J (vars.getD j { name := [], shape := .unit }).shape =
            decShape (den env fl) J (vars.getD j { name := [], shape := .unit }).shape := by
          intro j hj
          have hlt := (List.findIdx?_eq_some_iff_getElem.1 hj).1
          have : vars.getD j { name := [], shape := .unit } = vars[j] := by
            rw [List.getD_eq_getElem?_getD, List.getElem?_eq_getElem hlt]; rfl
          rw [this]
          exact h0 _ (List.getElem_mem _)
        cases J <;> simp only [decEnum]
        all_goals
          cases hf : findVariant vars false k with
          | none => rfl
          | some j => simp only; rw [hc j hf]
      | _ => rfl
  | _ => rfl

theorem Variant.isUnit_iff (v : Variant) : v.isUnit = true ↔ v.shape = .unit := by
  obtain ⟨nm, rn, sh⟩ := v
  cases sh <;> simp [Variant.isUnit]

theorem findVariant_iff {vars : List Variant} (hd : DistinctVariants vars) {u : Bool} {k : List Char} {j : Nat} :
    findVariant vars u k = some j ↔ ∃ v, vars[j]? = some v ∧ (u = true ↔ v.shape = .unit) ∧ v.jsonName = k := by
  constructor
  · intro h
    obtain ⟨hlt, h1, _⟩ := List.findIdx?_eq_some_iff_getElem.1 h
    simp only [Bool.and_eq_true, beq_iff_eq] at h1
    refine ⟨vars[j], List.getElem?_eq_getElem hlt, ?_, h1.2⟩
    rw [← h1.1, Variant.isUnit_iff]
  · rintro ⟨v, hv, hu, rfl⟩
    have hd' : vars.Pairwise fun v w => v.isUnit = w.isUnit → v.key ≠ w.key := by
      refine hd.imp fun {v w} h e => h ?_
      rw [← Variant.isUnit_iff, ← Variant.isUnit_iff, e]
    have := findVariant_split hv hd'
    have hue : v.isUnit = u := by
      rw [Bool.eq_iff_iff, Variant.isUnit_iff, hu]
    rwa [hue] at this

theorem decShape_iff (hw : ProgWf env) (hp : Productive env) {i : Nat} {vars} (hd : env.defs[i]? = some (.enum vars))
    {v : Variant} (hv : v ∈ vars) (hdn : ∀ fs, v.shape = .named fs → DistinctNames fs) {J : JTree}
    (hx : Spellable fl J.lexemes) (vs : List Val) :
    decShape (den env fl) J v.shape = .ok vs ↔ ContentsRead env fl J vs v.shape := by
  obtain ⟨nm, rn, sh⟩ := v
  have hwf : ∀ t ∈ (match sh with | .unit => ([] : List Ty) | .tuple ts => ts | .named fs => fs.map (fun f : Field => f.ty)), TyWf env t := by
    intro t ht
    refine Def.wf_of hw hd t ?_
    simp only [Def.tys, List.mem_flatMap]
    exact ⟨_, hv, ht⟩
  cases sh with
  | unit => simp [decShape, ContentsRead]
  | tuple ts => exact decTuple_iff hw hp ts hwf J hx vs
  | named fs =>
    simp only [decShape, ContentsRead]
    cases J with
    | obj ms tr =>
      rw [decNamed_iff hw hp (fun f hf => hwf _ (List.mem_map_of_mem hf)) (hdn fs rfl) (fun m hm => (hx.obj hm).2)]
      constructor
      · intro h; exact ⟨ms, tr, rfl, h⟩
      · rintro ⟨ms', tr', e, h⟩; cases e; exact h
    | _ => simp [decNamed]

theorem enum_iff (hw : ProgWf env) (hp : Productive env) {i : Nat} {vars} (hd : env.defs[i]? = some (.enum vars))
    (hdv : DistinctVariants vars) (hdn : ∀ v ∈ vars, ∀ fs, v.shape = .named fs → DistinctNames fs) {J : JTree}
    {txt} (hx : JText fl J txt) (v : Val) :
    Decodes (fun n => deserializeJson env fl n (.named i) txt) v ↔ EnumReads env fl vars J v := by
  have hsp := hx.spellable
  rw [den_decodes hw hp (t := .named i) (def_lt hd) hx, den_enum hw hp hd]
  constructor
  · intro h
    unfold decEnum at h
    split at h
    · rename_i s e
      injection e with e; subst e
      split at h
      · rename_i j hj
        injection h with h; subst h
        obtain ⟨var, h1, h2, rfl⟩ := (findVariant_iff hdv).1 hj
        exact .unit h1 (h2.1 rfl)
      · cases h
    · rename_i k K ms tr e
      injection e with e; subst e
      have hK := (hsp.obj (List.mem_cons_self ..)).2
      have main : (match findVariant vars false k with
          | some j => (decShape (den env fl) K (vars.getD j { name := [], shape := .unit }).shape).bind fun vs =>
              if ms.isEmpty = true ∧ tr = false then Dec.ok (Val.variant j vs) else .err
          | none => Dec.err) = .ok v := by
        split at h
        · exact h
        · exact h
        · cases h
      split at main
      · rename_i j hj
        obtain ⟨var, h1, h2, rfl⟩ := (findVariant_iff hdv).1 hj
        obtain ⟨vs, h3, h4⟩ := Dec.bind_eq_ok.1 main
        split at h4
        · rename_i hc
          injection h4 with h4; subst h4
          have : ms = [] := List.isEmpty_iff.1 hc.1
          subst this
          rw [hc.2]
          rw [List.getD_eq_getElem?_getD, h1] at h3
          have hmem := List.mem_of_getElem? h1
          exact .other h1 ((decShape_iff hw hp hd hmem (hdn _ hmem) hK vs).1 h3)
        · cases h4
      · cases main
    · cases h
  · intro h
    cases h with
    | @unit j var h1 h2 =>
      simp only [decEnum]
      rw [(findVariant_iff hdv).2 ⟨var, h1, by simp [h2], rfl⟩]
    | @other j var K vs h1 h2 =>
      have hK := (hsp.obj (List.mem_cons_self ..)).2
      have hmem := List.mem_of_getElem? h1
      have h3 := (decShape_iff hw hp hd hmem (hdn _ hmem) hK vs).2 h2
      have hnu : var.shape ≠ .unit := by intro e; rw [e] at h2; exact h2
      have hf := (findVariant_iff (u := false) hdv).2 ⟨var, h1, by simp [hnu], rfl⟩
      have main : (match findVariant vars false var.jsonName with
          | some j => (decShape (den env fl) K (vars.getD j { name := [], shape := .unit }).shape).bind fun vs =>
              if ([] : List (JTree × JTree)).isEmpty = true ∧ (false : Bool) = false then Dec.ok (Val.variant j vs) else .err
          | none => Dec.err) = .ok (.variant j vs) := by
        rw [hf]
        simp only
        rw [List.getD_eq_getElem?_getD, h1]
        simp only [Option.getD_some]
        rw [h3]
        simp [Dec.bind]
      simp only [decEnum]
      cases K with
      | arr => exact main
      | obj => exact main
      | _ =>
        exfalso
        unfold ContentsRead at h2
        split at h2
        · exact h2
        · obtain ⟨_, _, e, _⟩ := h2; cases e
        · obtain ⟨_, _, e, _⟩ := h2; cases e

end NS
