import Verif.Lemmas.JsonDen
/-! The declarative reading of an object as a derived struct. -/
namespace NS
variable {env : Env} {fl : FloatOps} {D : Ty → Option JTree → Dec Val}

theorem Dec.bind_eq_ok {α β : Type} {d : Dec α} {f : α → Dec β} {b : β} :
    d.bind f = .ok b ↔ ∃ a, d = .ok a ∧ f a = .ok b := by
  cases d <;> simp [Dec.bind]

/-- The value put into slot `i` by the members `ms`. -/
def slot (D : Ty → Option JTree → Dec Val) (fs : List Field) (i : Nat) : List (JTree × JTree) → Option Val
  | [] => none
  | m :: ms =>
    match slot D fs i ms with
    | some w => some w
    | none =>
      match m.1 with
      | .str k =>
        if findField fs k = some i then
          match decField D (fs.getD i { name := [], ty := .unit }) m.2 with
          | .ok w => some w
          | _ => none
        else none
      | _ => none

/-- Every member is readable. -/
def MReadable (D : Ty → Option JTree → Dec Val) (fs : List Field) (m : JTree × JTree) : Prop :=
  ∃ k, m.1 = .str k ∧ fs ≠ [] ∧ ∀ i, findField fs k = some i →
    ∃ w, decField D (fs.getD i { name := [], ty := .unit }) m.2 = .ok w

theorem decMember_ok {fs acc m acc'} : decMember D fs acc m = .ok acc' ↔
    MReadable D fs m ∧ acc' = acc.mapIdx fun i o => (slot D fs i [m]).or o := by
  obtain ⟨key, J⟩ := m
  unfold decMember
  split
  · rename_i k e
    simp only at e
    subst e
    by_cases hfs : fs = []
    · subst hfs
      simp [MReadable]
    · rw [if_neg (by simpa using hfs)]
      split
      · rename_i hn
        have : (acc.mapIdx fun i o => (slot D fs i [(JTree.str k, J)]).or o) = acc := by
          simp only [slot, hn]
          apply List.ext_getElem? ; intro i
          simp
        rw [this]
        simp only [MReadable]
        constructor
        · intro h; injection h with h; exact ⟨⟨k, rfl, hfs, fun i hi => by rw [hn] at hi; cases hi⟩, h.symm⟩
        · rintro ⟨_, rfl⟩; rfl
      · rename_i i hi
        rw [Dec.bind_eq_ok]
        constructor
        · rintro ⟨v, hv, h⟩
          injection h with h
          subst h
          refine ⟨⟨k, rfl, hfs, fun j hj => ?_⟩, ?_⟩
          · rw [hi] at hj; injection hj with hj; subst hj; exact ⟨v, hv⟩
          · apply List.ext_getElem?
            intro j
            simp only [List.getElem?_set, List.getElem?_mapIdx, slot, hi]
            by_cases hij : i = j
            · subst hij
              by_cases hl : i < acc.length
              · simp only at hv; simp only [hv]; simp [hl]
              · simp [hl]
            · simp [hij]
        · rintro ⟨⟨k', hk', _, h⟩, rfl⟩
          injection hk' with hk'
          subst hk'
          obtain ⟨w, hw⟩ := h i hi
          refine ⟨w, hw, ?_⟩
          congr 1
          apply List.ext_getElem?
          intro j
          simp only [List.getElem?_set, List.getElem?_mapIdx, slot, hi]
          by_cases hij : i = j
          · subst hij
            by_cases hl : i < acc.length
            · simp only at hw; simp only [hw]; simp [hl]
            · simp [hl]
          · simp [hij]
  · rename_i hne
    constructor
    · intro h; cases h
    · rintro ⟨⟨k, e, _⟩, _⟩; exact absurd e (hne k)

theorem slot_cons (fs i m ms) : slot D fs i (m :: ms) = (slot D fs i ms).or (slot D fs i [m]) := by
  rw [slot]
  cases h : slot D fs i ms with
  | some w => simp
  | none => simp [slot]

theorem fold_members {fs} (ms : List (JTree × JTree)) (acc acc') : foldD (decMember D fs) acc ms = .ok acc' ↔
    (∀ m ∈ ms, MReadable D fs m) ∧ acc' = acc.mapIdx fun i o => (slot D fs i ms).or o := by
  induction ms generalizing acc with
  | nil =>
    have : (acc.mapIdx fun i o => (slot D fs i []).or o) = acc := by
      apply List.ext_getElem?; intro i; simp [slot]
    rw [this]
    simp only [foldD, List.not_mem_nil, false_imp_iff, implies_true, true_and]
    constructor
    · intro h; injection h with h; exact h.symm
    · rintro rfl; rfl
  | cons m ms ih =>
    have e : ∀ acc : List (Option Val), ((acc.mapIdx fun i o => (slot D fs i [m]).or o).mapIdx fun i o => (slot D fs i ms).or o) =
        acc.mapIdx fun i o => (slot D fs i (m :: ms)).or o := by
      intro acc
      apply List.ext_getElem?; intro i
      simp only [List.getElem?_mapIdx, Option.map_map]
      congr 1
      funext o
      simp only [Function.comp]
      rw [slot_cons fs i m ms, Option.or_assoc]
    simp only [foldD]
    rw [Dec.bind_eq_ok]
    constructor
    · rintro ⟨a, h1, h2⟩
      obtain ⟨h3, rfl⟩ := decMember_ok.1 h1
      obtain ⟨h4, rfl⟩ := (ih _).1 h2
      refine ⟨fun x hx => ?_, e acc⟩
      rcases List.mem_cons.1 hx with rfl | hx
      · exact h3
      · exact h4 x hx
    · rintro ⟨h1, rfl⟩
      refine ⟨_, decMember_ok.2 ⟨h1 m (List.mem_cons_self ..), rfl⟩, ?_⟩
      exact (ih _).2 ⟨fun x hx => h1 x (List.mem_cons_of_mem _ hx), (e acc).symm⟩

theorem unwrap_ok {cd} (fs : List Field) (acc : List (Option Val)) (hl : acc.length = fs.length) (vs : List Val) :
    decUnwrap cd fs acc = .ok vs ↔ vs.length = fs.length ∧ ∀ (i : Nat) f o w, fs[i]? = some f → acc[i]? = some o →
      vs[i]? = some w → (f.skip = false ∧ o = some w) ∨
        ((f.skip = true ∨ o = none) ∧ f.mayBeAbsent cd ∧ w = f.absentValue) := by
  induction fs generalizing acc vs with
  | nil =>
    cases acc with
    | cons a as => simp at hl
    | nil =>
      simp only [decUnwrap, List.length_nil, List.length_eq_zero_iff]
      constructor
      · intro h; injection h with h; subst h; simp
      · rintro ⟨rfl, _⟩; rfl
  | cons f fs ih =>
    cases acc with
    | nil => simp at hl
    | cons o os =>
      have hl' : os.length = fs.length := by simpa using hl
      have key : ∀ a : Val, ((decUnwrap cd fs os).bind fun vs => .ok (a :: vs)) = .ok vs ↔
          ∃ ws, vs = a :: ws ∧ decUnwrap cd fs os = .ok ws := by
        intro a
        rw [Dec.bind_eq_ok]
        constructor
        · rintro ⟨ws, h1, h2⟩; injection h2 with h2; exact ⟨ws, h2.symm, h1⟩
        · rintro ⟨ws, rfl, h1⟩; exact ⟨ws, h1, rfl⟩
      have main : ∀ (a : Val) (P : Val → Prop), (∀ w, P w ↔ w = a) →
          ((∃ ws, vs = a :: ws ∧ decUnwrap cd fs os = .ok ws) ↔
          (vs.length = fs.length + 1 ∧ (∀ w, vs[0]? = some w → P w) ∧ ∀ (i : Nat) f o w, fs[i]? = some f → os[i]? = some o →
            vs[i+1]? = some w → (f.skip = false ∧ o = some w) ∨
            ((f.skip = true ∨ o = none) ∧ f.mayBeAbsent cd ∧ w = f.absentValue))) := by
        intro a P hP
        constructor
        · rintro ⟨ws, rfl, h⟩
          obtain ⟨h1, h2⟩ := (ih os hl' ws).1 h
          refine ⟨by simp [h1], fun w hw => ?_, fun i f o w h3 h4 h5 => h2 i f o w h3 h4 (by simpa using h5)⟩
          simp at hw; exact (hP w).2 hw.symm
        · rintro ⟨h1, h2, h3⟩
          cases vs with
          | nil => simp at h1
          | cons w ws =>
            have := (hP w).1 (h2 w rfl)
            subst this
            exact ⟨ws, rfl, (ih os hl' ws).2 ⟨by simpa using h1, fun i f o w h4 h5 h6 => h3 i f o w h4 h5 (by simpa using h6)⟩⟩
      have split0 : (vs.length = (f :: fs).length ∧ ∀ (i : Nat) f' o' w, (f :: fs)[i]? = some f' → (o :: os)[i]? = some o' →
          vs[i]? = some w → (f'.skip = false ∧ o' = some w) ∨
          ((f'.skip = true ∨ o' = none) ∧ f'.mayBeAbsent cd ∧ w = f'.absentValue)) ↔
          (vs.length = fs.length + 1 ∧ (∀ w, vs[0]? = some w → (f.skip = false ∧ o = some w) ∨
          ((f.skip = true ∨ o = none) ∧ f.mayBeAbsent cd ∧ w = f.absentValue)) ∧
          ∀ (i : Nat) f o w, fs[i]? = some f → os[i]? = some o →
            vs[i+1]? = some w → (f.skip = false ∧ o = some w) ∨
            ((f.skip = true ∨ o = none) ∧ f.mayBeAbsent cd ∧ w = f.absentValue)) := by
        constructor
        · rintro ⟨h1, h2⟩
          exact ⟨by simpa using h1, fun w hw => h2 0 f o w rfl rfl hw, fun i f o w h3 h4 h5 => h2 (i + 1) f o w (by simpa using h3) (by simpa using h4) h5⟩
        · rintro ⟨h1, h2, h3⟩
          refine ⟨by simpa using h1, fun i f' o' w h4 h5 h6 => ?_⟩
          cases i with
          | zero => simp at h4 h5; subst h4; subst h5; exact h2 w h6
          | succ i => exact h3 i f' o' w (by simpa using h4) (by simpa using h5) h6
      rw [split0]
      unfold decUnwrap
      cases ho : (if f.skip = true then none else o) with
      | some v =>
        simp only
        have hs : f.skip = false := by
          cases hs : f.skip with
          | false => rfl
          | true => rw [hs] at ho; simp at ho
        rw [hs] at ho
        simp at ho
        subst ho
        rw [key]
        refine main v _ fun w => ?_
        simp [hs]
        exact eq_comm
      | none =>
        simp only
        have hs : f.skip = true ∨ o = none := by
          cases hs : f.skip with
          | false => rw [hs] at ho; simp at ho; exact .inr ho
          | true => exact .inl rfl
        have hns : ∀ w, ¬ (f.skip = false ∧ o = some w) := by
          rintro w ⟨h1, h2⟩
          rcases hs with hs | hs
          · rw [h1] at hs; cases hs
          · rw [h2] at hs; cases hs
        by_cases hc : (f.skip || f.optSyn || cd || f.dfltAttr.isSome) = true
        · rw [if_pos hc, key]
          refine main _ _ fun w => ?_
          have hc' : f.mayBeAbsent cd := by simpa [Field.mayBeAbsent, or_assoc] using hc
          constructor
          · rintro (h | h)
            · exact absurd h (hns w)
            · exact h.2.2
          · intro h; exact .inr ⟨hs, hc', h⟩
        · rw [if_neg hc]
          constructor
          · intro h; cases h
          · rintro ⟨h1, h2, _⟩
            exfalso
            cases vs with
            | nil => simp at h1
            | cons w ws =>
              rcases h2 w rfl with h | h
              · exact hns w h
              · exact hc (by simpa [Field.mayBeAbsent, or_assoc] using h.2.1)

/-- With distinct names the match arm of a key is the field of that name. -/
theorem findField_iff {fs : List Field} (hd : DistinctNames fs) {k : List Char} {i : Nat} :
    findField fs k = some i ↔ ∃ f, fs[i]? = some f ∧ f.skip = false ∧ f.jsonName = k := by
  unfold findField
  rw [List.findIdx?_eq_some_iff_getElem]
  constructor
  · rintro ⟨h, h1, h2⟩
    refine ⟨fs[i], List.getElem?_eq_getElem h, ?_⟩
    simpa [Field.key, Field.jsonName] using h1
  · rintro ⟨f, h1, h2, h3⟩
    obtain ⟨h, e⟩ := List.getElem?_eq_some_iff.1 h1
    refine ⟨h, ?_, fun j hj => ?_⟩
    · rw [e]; simp [h2, ← h3, Field.key, Field.jsonName]
    · intro hc
      simp only [Bool.and_eq_true, Bool.not_eq_true', beq_iff_eq] at hc
      have := List.pairwise_iff_getElem.1 hd j i (by omega) h hj hc.1 (by rw [e]; exact h2)
      apply this
      rw [e, h3]
      exact hc.2

theorem slot_some {fs : List Field} (hd : DistinctNames fs) {i f} (hi : fs[i]? = some f) (hs : f.skip = false)
    (ms : List (JTree × JTree)) (hr : ∀ m ∈ ms, MReadable D fs m) :
    (∀ w, slot D fs i ms = some w ↔ ∃ J, LastMember ms f.jsonName J ∧ decField D f J = .ok w) ∧
    (slot D fs i ms = none ↔ NoMember ms f.jsonName) := by
  have hg : fs.getD i { name := [], ty := .unit } = f := by rw [List.getD_eq_getElem?_getD, hi]; rfl
  have hf : findField fs f.jsonName = some i := (findField_iff hd).2 ⟨f, hi, hs, rfl⟩
  induction ms with
  | nil =>
    refine ⟨fun w => ?_, ?_⟩
    · simp [slot, LastMember]
    · simp [slot, NoMember]
  | cons m ms ih =>
    obtain ⟨ih1, ih2⟩ := ih fun x hx => hr x (List.mem_cons_of_mem _ hx)
    obtain ⟨k, hk, _, hread⟩ := hr m (List.mem_cons_self ..)
    obtain ⟨key, J⟩ := m
    simp only at hk
    subst hk
    cases hsl : slot D fs i ms with
    | some w' =>
      have : ¬ NoMember ms f.jsonName := by rw [← ih2, hsl]; simp
      rw [slot_cons, hsl]
      refine ⟨fun w => ?_, ?_⟩
      · simp only [Option.some_or]
        rw [← hsl, ih1 w]
        constructor
        · rintro ⟨J', ⟨a, b, e, hb⟩, h⟩
          exact ⟨J', ⟨_ :: a, b, by rw [e]; rfl, hb⟩, h⟩
        · rintro ⟨J', ⟨a, b, e, hb⟩, h⟩
          cases a with
          | nil =>
            simp at e
            exact absurd (by rw [e.2]; exact hb) this
          | cons a as =>
            simp at e
            exact ⟨J', ⟨as, b, e.2, hb⟩, h⟩
      · simp only [Option.some_or]
        constructor
        · intro h; cases h
        · intro h; exact absurd (fun x hx => h x (List.mem_cons_of_mem _ hx)) this
    | none =>
      have hno : NoMember ms f.jsonName := ih2.1 hsl
      rw [slot_cons, hsl]
      simp only [Option.none_or, slot]
      by_cases hkf : k = f.jsonName
      · subst hkf
        obtain ⟨w', hw'⟩ := hread i hf
        rw [hg] at hw'
        simp only [hf, if_true, hg, hw']
        refine ⟨fun w => ?_, ?_⟩
        · constructor
          · intro h; injection h with h; subst h
            exact ⟨J, ⟨[], ms, rfl, hno⟩, hw'⟩
          · rintro ⟨J', ⟨a, b, e, hb⟩, h⟩
            cases a with
            | nil => simp at e; rw [← e.1, hw'] at h; injection h with h; rw [h]
            | cons a as =>
              simp at e
              exact absurd rfl (hno (.str f.jsonName, J') (by rw [e.2]; simp))
        · constructor
          · intro h; cases h
          · intro h; exact absurd rfl (h _ (List.mem_cons_self ..))
      · have hne : findField fs k ≠ some i := by
          intro h
          obtain ⟨f', h1, _, h3⟩ := (findField_iff hd).1 h
          rw [hi] at h1; injection h1 with h1; subst h1; exact hkf h3.symm
        simp only [hne, if_false]
        refine ⟨fun w => ?_, ?_⟩
        · constructor
          · intro h; cases h
          · rintro ⟨J', ⟨a, b, e, hb⟩, h⟩
            cases a with
            | nil => simp at e; exact absurd e.1.1 hkf
            | cons a as =>
              simp at e
              exact absurd rfl (hno (.str f.jsonName, J') (by rw [e.2]; simp))
        · refine ⟨fun _ => ?_, fun _ => by trivial⟩
          intro x hx
          rcases List.mem_cons.1 hx with rfl | hx
          · simp; exact hkf
          · exact hno x hx

theorem fieldReads_iff (hw : ProgWf env) (hp : Productive env) {f : Field} (ht : TyWf env f.ty) {J v}
    (hx : Spellable fl J.lexemes) : FieldReads env fl f J v ↔ decField (den env fl) f J = .ok v := by
  unfold FieldReads decField
  obtain ⟨nm, ty, rn, os, sk, nn, da, td, op⟩ := f
  simp only at ht ⊢
  split
  · rename_i t
    rw [Dec.bind_eq_ok]
    constructor
    · rintro ⟨w, rfl, h⟩; exact ⟨w, (readsAs_iff hw hp ht.of_option hx).1 h, rfl⟩
    · rintro ⟨w, h1, h2⟩; injection h2 with h2; exact ⟨w, h2.symm, (readsAs_iff hw hp ht.of_option hx).2 h1⟩
  · rename_i hne
    split
    · exact (hne _ rfl rfl).elim
    · exact readsAs_iff hw hp ht hx

/-- Members readable, through the reference. -/
theorem mreadable_iff (hw : ProgWf env) (hp : Productive env) {fs : List Field} (hfs : ∀ f ∈ fs, TyWf env f.ty)
    (hdn : DistinctNames fs) {ms : List (JTree × JTree)} (hx : ∀ m ∈ ms, Spellable fl m.2.lexemes) :
    (∀ m ∈ ms, MReadable (den env fl) fs m) ↔ MembersReadable env fl fs ms := by
  constructor
  · intro h
    refine ⟨fun m hm => ?_, fun hf => ?_, fun f hf hs J hJ => ?_⟩
    · obtain ⟨k, e, _⟩ := h m hm; exact ⟨k, e⟩
    · cases ms with
      | nil => rfl
      | cons m ms => obtain ⟨k, e, h2, _⟩ := h m (List.mem_cons_self ..); exact absurd hf h2
    · obtain ⟨k, e, _, h3⟩ := h _ hJ
      simp only at e
      injection e with e
      obtain ⟨i, hi⟩ := List.mem_iff_getElem?.1 hf
      obtain ⟨w, hw'⟩ := h3 i ((findField_iff hdn).2 ⟨f, hi, hs, e⟩)
      rw [List.getD_eq_getElem?_getD, hi] at hw'
      exact ⟨w, (fieldReads_iff hw hp (hfs f hf) (hx _ hJ)).2 hw'⟩
  · rintro ⟨h1, h2, h3⟩ m hm
    obtain ⟨k, e⟩ := h1 m hm
    refine ⟨k, e, fun hf => ?_, fun i hi => ?_⟩
    · rw [h2 hf] at hm; cases hm
    · obtain ⟨f, hf, hs, hn⟩ := (findField_iff hdn).1 hi
      rw [List.getD_eq_getElem?_getD, hf]
      have hmem := List.mem_of_getElem? hf
      obtain ⟨w, hw'⟩ := h3 f hmem hs m.2 (by rw [hn, ← e]; exact hm)
      exact ⟨w, (fieldReads_iff hw hp (hfs f hmem) (hx _ hm)).1 hw'⟩

/-- The declarative characterisation, at the level of fields. -/
theorem decNamed_iff (hw : ProgWf env) (hp : Productive env) {cd : Bool} {fs : List Field} (hfs : ∀ f ∈ fs, TyWf env f.ty)
    (hdn : DistinctNames fs) {ms : List (JTree × JTree)} {tr : Bool} (hx : ∀ m ∈ ms, Spellable fl m.2.lexemes) (vs : List Val) :
    decNamed (den env fl) cd fs (some (.obj ms tr)) = .ok vs ↔
      MembersReadable env fl fs ms ∧ vs.length = fs.length ∧
      ∀ (i : Nat) f w, fs[i]? = some f → vs[i]? = some w → FieldValue env fl cd ms f w := by
  simp only [decNamed]
  rw [Dec.bind_eq_ok]
  have hsl : ∀ i, i < fs.length → ((fs.map fun _ => (none : Option Val)).mapIdx fun i o =>
      (slot (den env fl) fs i ms).or o)[i]? = some (slot (den env fl) fs i ms) := by
    intro i hi
    simp [List.getElem?_eq_getElem hi]
  have fv : (∀ m ∈ ms, MReadable (den env fl) fs m) → ∀ (i : Nat) f w, fs[i]? = some f →
      (FieldValue env fl cd ms f w ↔ ((f.skip = false ∧ slot (den env fl) fs i ms = some w) ∨
        ((f.skip = true ∨ slot (den env fl) fs i ms = none) ∧ f.mayBeAbsent cd ∧ w = f.absentValue))) := by
    intro hr i f w hi
    unfold FieldValue
    by_cases hs : f.skip = true
    · rw [if_pos hs]
      constructor
      · intro h; exact .inr ⟨.inl hs, .inl hs, h⟩
      · rintro (h | h)
        · rw [hs] at h; cases h.1
        · exact h.2.2
    · rw [if_neg hs]
      have hs' : f.skip = false := by simpa using hs
      obtain ⟨h1, h2⟩ := slot_some hdn hi hs' ms hr
      rw [h1 w, h2]
      have hmem := List.mem_of_getElem? hi
      have : (∃ J, LastMember ms f.jsonName J ∧ FieldReads env fl f J w) ↔
          ∃ J, LastMember ms f.jsonName J ∧ decField (den env fl) f J = .ok w := by
        constructor
        · rintro ⟨J, hl, h⟩
          have hm : (JTree.str f.jsonName, J) ∈ ms := by obtain ⟨a, b, e, _⟩ := hl; rw [e]; simp
          exact ⟨J, hl, (fieldReads_iff hw hp (hfs f hmem) (hx _ hm)).1 h⟩
        · rintro ⟨J, hl, h⟩
          have hm : (JTree.str f.jsonName, J) ∈ ms := by obtain ⟨a, b, e, _⟩ := hl; rw [e]; simp
          exact ⟨J, hl, (fieldReads_iff hw hp (hfs f hmem) (hx _ hm)).2 h⟩
      rw [this]
      simp only [hs', true_and, Bool.false_eq_true, false_or]
  constructor
  · rintro ⟨acc, h1, h2⟩
    obtain ⟨hr, rfl⟩ := (fold_members ms _ _).1 h1
    obtain ⟨h3, h4⟩ := (unwrap_ok fs _ (by simp) vs).1 h2
    refine ⟨(mreadable_iff hw hp hfs hdn hx).1 hr, h3, fun i f w hi hv => ?_⟩
    have hlt : i < fs.length := by
      rcases Nat.lt_or_ge i fs.length with h | h
      · exact h
      · rw [List.getElem?_eq_none h] at hi; cases hi
    exact (fv hr i f w hi).2 (h4 i f _ w hi (hsl i hlt) hv)
  · rintro ⟨hr, h3, h4⟩
    have hr' := (mreadable_iff hw hp hfs hdn hx).2 hr
    refine ⟨_, (fold_members ms _ _).2 ⟨hr', rfl⟩, (unwrap_ok fs _ (by simp) vs).2 ⟨h3, fun i f o w hi ho hv => ?_⟩⟩
    have hlt : i < fs.length := by
      rcases Nat.lt_or_ge i fs.length with h | h
      · exact h
      · rw [List.getElem?_eq_none h] at hi; cases hi
    rw [hsl i hlt] at ho
    injection ho with ho
    subst ho
    exact (fv hr' i f w hi).1 (h4 i f w hi hv)

theorem def_lt {i : Nat} {d : Def} (hd : env.defs[i]? = some d) : i < env.defs.length := by
  rcases Nat.lt_or_ge i env.defs.length with h | h
  · exact h
  · rw [List.getElem?_eq_none h] at hd; cases hd

/-- Reading an object as a derived struct. -/
theorem struct_iff (hw : ProgWf env) (hp : Productive env) {i : Nat} {fs cd nul}
    (hd : env.defs[i]? = some (.struct fs cd nul)) (hdn : DistinctNames fs) {ms : List (JTree × JTree)} {tr : Bool}
    {txt} (hx : JText fl (.obj ms tr) txt) (v : Val) :
    Decodes (fun n => deserializeJson env fl n (.named i) txt) v ↔
      MembersReadable env fl fs ms ∧ ∃ vs, v = .struct vs ∧ vs.length = fs.length ∧
      ∀ (i : Nat) f w, fs[i]? = some f → vs[i]? = some w → FieldValue env fl cd ms f w := by
  have hfs : ∀ f ∈ fs, TyWf env f.ty := fun f hf => Def.wf_of hw hd f.ty (by simp [Def.tys]; exact ⟨f, hf, rfl⟩)
  have hsp := hx.spellable
  rw [den_decodes hw hp (t := .named i) (def_lt hd) hx, den_struct hw hp hd, Dec.bind_eq_ok]
  constructor
  · rintro ⟨vs, h1, h2⟩
    injection h2 with h2
    obtain ⟨h3, h4⟩ := (decNamed_iff hw hp hfs hdn (fun m hm => (hsp.obj hm).2) vs).1 h1
    exact ⟨h3, vs, h2.symm, h4⟩
  · rintro ⟨h1, vs, rfl, h2⟩
    exact ⟨vs, (decNamed_iff hw hp hfs hdn (fun m hm => (hsp.obj hm).2) vs).2 ⟨h1, h2⟩, rfl⟩

end NS
