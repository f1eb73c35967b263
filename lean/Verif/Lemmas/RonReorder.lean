import Verif.Spec.RonReorder
import Verif.Lemmas.Reorder
/-! # Rearranged RON values mean the same -/
namespace NS
variable {env : Env} {fl : FloatOps}

theorem RRearranged.symm {B : Ty → RTree → RTree → Prop} {t : Ty} {x x' : RTree} (h : RRearranged env B t x x') :
    RRearranged env (fun t x x' => B t x' x) t x' x := by
  induction h with
  | refl => exact .refl
  | swap h => exact .swap h
  | dur => exact .dur
  | time => exact .time
  | option _ ih => exact .option ih
  | box _ ih => exact .box ih
  | @seq c t tr tr' ps hc _ ih =>
    have := RRearranged.seq (env := env) (B := fun t x x' => B t x' x) (tr := tr') (tr' := tr) (c := c) (t := t) (ps.map fun p => (p.2, p.1)) hc (by
      intro p hp
      obtain ⟨q, hq, rfl⟩ := List.mem_map.1 hp
      exact ih q hq)
    simpa [List.map_map, Function.comp_def] using this
  | @array t tr tr' ps _ ih =>
    have := RRearranged.array (env := env) (B := fun t x x' => B t x' x) (tr := tr') (tr' := tr) (t := t) (ps.map fun p => (p.2, p.1)) (by
      intro p hp
      obtain ⟨q, hq, rfl⟩ := List.mem_map.1 hp
      exact ih q hq)
    simpa [List.map_map, Function.comp_def] using this
  | @tuple c tr tr' ps hc _ ih =>
    have := RRearranged.tuple (env := env) (B := fun t x x' => B t x' x) (tr := tr') (tr' := tr) (c := c) (ps.map fun p => (p.1, p.2.2, p.2.1))
      (by simpa [List.map_map, Function.comp_def] using hc) (by
      intro p hp
      obtain ⟨q, hq, rfl⟩ := List.mem_map.1 hp
      exact ih q hq)
    simpa [List.map_map, Function.comp_def] using this
  | @map c k t tr tr' ps hc _ _ ih1 ih2 =>
    have := RRearranged.map (env := env) (B := fun t x x' => B t x' x) (tr := tr') (tr' := tr) (c := c) (k := k) (t := t)
      (ps.map fun p => ((p.1.2, p.1.1), (p.2.2, p.2.1))) hc (by
      intro p hp
      obtain ⟨q, hq, rfl⟩ := List.mem_map.1 hp
      exact ih1 q hq) (by
      intro p hp
      obtain ⟨q, hq, rfl⟩ := List.mem_map.1 hp
      exact ih2 q hq)
    simpa [List.map_map, Function.comp_def] using this
  | struct ms ms' ps hd hp h1 h2 _ ih =>
    refine .struct ms' ms (ps.map fun p => (p.1, p.2.2, p.2.1)) hd (List.pairwise_map.2 hp)
      (by simpa [List.map_map, Function.comp_def] using h2) (by simpa [List.map_map, Function.comp_def] using h1) ?_
    intro p hp f hf hs hn
    obtain ⟨q, hq, rfl⟩ := List.mem_map.1 hp
    exact ih q hq f hf hs hn
  | structVariant ms ms' ps hd hv hs hp h1 h2 _ ih =>
    refine .structVariant ms' ms (ps.map fun p => (p.1, p.2.2, p.2.1)) hd hv hs (List.pairwise_map.2 hp)
      (by simpa [List.map_map, Function.comp_def] using h2) (by simpa [List.map_map, Function.comp_def] using h1) ?_
    intro p hp f hf hs hn
    obtain ⟨q, hq, rfl⟩ := List.mem_map.1 hp
    exact ih q hq f hf hs hn
  | @tupleVariant i j vars w tr tr' var ps hd hv hs _ ih =>
    have := RRearranged.tupleVariant (env := env) (B := fun t x x' => B t x' x) (tr := tr') (tr' := tr) (ps.map fun p => (p.1, p.2.2, p.2.1)) hd hv
      (by simpa [List.map_map, Function.comp_def] using hs) (by
      intro p hp
      obtain ⟨q, hq, rfl⟩ := List.mem_map.1 hp
      exact ih q hq)
    simpa [List.map_map, Function.comp_def] using this
  | dropNone a b h hf hn hm => exact .addNone a b h hf hn hm
  | addNone a b h hf hn hm => exact .dropNone a b h hf hn hm
  | dropNoneVariant a b h hv hs hf hn hm => exact .addNoneVariant a b h hv hs hf hn hm
  | addNoneVariant a b h hv hs hf hn hm => exact .dropNoneVariant a b h hv hs hf hn hm
  | bset h => exact .bset h.symm
  | bmap ms ms' h hd => exact .bmap ms' ms h.symm ((h.pairwise_iff (fun h => h.symm)).1 hd)

theorem RRearranged.notNone {B : Ty → RTree → RTree → Prop} (hB : ∀ t x x', B t x x' → RReadAlike env fl t x x') {t : Ty} {x x' : RTree} (h : RRearranged env B t x x') (hn : NotNone x) : NotNone x' := by
  induction h with
  | refl => exact hn
  | swap h => exact (hB _ _ _ h).1.1 hn
  | option _ ih | box _ ih => exact ih hn
  | structVariant | tupleVariant | dropNoneVariant | addNoneVariant => exact hn
  | _ => exact True.intro

theorem RRearranged.isNone {B : Ty → RTree → RTree → Prop} (hB : ∀ t x x', B t x x' → RReadAlike env fl t x x') {t : Ty} {x x' : RTree} (h : RRearranged env B t x x')
    (hn : x = .word ['N', 'o', 'n', 'e']) : x' = .word ['N', 'o', 'n', 'e'] := by
  induction h with
  | refl => exact hn
  | swap h => exact (hB _ _ _ h).2.1.1 hn
  | option _ ih | box _ ih => exact ih hn
  | _ => cases hn

/-- The fields get the same from rearranged members. -/
theorem ron_members_same {cd : Bool} {fs : List Field} {vs : List Val} {ps0 : List RMember} {ms ms' : List (List Char × RTree)}
    {ps : List (List Char × RTree × RTree)}
    (hp : ps.Pairwise fun p q => p.1 ≠ q.1) (h1 : ms.Perm (ps.map fun p => (p.1, p.2.1)))
    (h2 : ms'.Perm (ps.map fun p => (p.1, p.2.2)))
    (hR : ∀ p ∈ ps, ∀ f ∈ fs, f.skip = false → f.jsonName = p.1 → ∀ v, RonMeans env fl f.ty p.2.1 v → RonMeans env fl f.ty p.2.2 v)
    (e : ps0.map (fun p => (p.1, p.2.1)) = ms) (hg : FieldsGet cd fs ps0 vs)
    (hm : ∀ p ∈ ps0, ∀ f ∈ fs, f.skip = false → f.jsonName = p.1 → RonMeans env fl f.ty p.2.1 p.2.2) :
    ∃ qs : List RMember, qs.map (fun p => (p.1, p.2.1)) = ms' ∧ FieldsGet cd fs qs vs ∧
      ∀ p ∈ qs, ∀ f ∈ fs, f.skip = false → f.jsonName = p.1 → RonMeans env fl f.ty p.2.1 p.2.2 := by
  have left : ∀ p ∈ ps0, ∃ q ∈ ps, q.1 = p.1 ∧ q.2.1 = p.2.1 := by
    intro p hp0
    have : (p.1, p.2.1) ∈ ms := by rw [← e]; exact List.mem_map.2 ⟨p, hp0, rfl⟩
    obtain ⟨q, hq, hq'⟩ := List.mem_map.1 (h1.mem_iff.1 this)
    injection hq' with a b
    exact ⟨q, hq, a, b⟩
  have right : ∀ m ∈ ms', ∃ q ∈ ps, q.1 = m.1 ∧ q.2.2 = m.2 := by
    intro m hm'
    obtain ⟨q, hq, rfl⟩ := List.mem_map.1 (h2.mem_iff.1 hm')
    exact ⟨q, hq, rfl, rfl⟩
  have inL : ∀ q ∈ ps, ∃ p ∈ ps0, p.1 = q.1 := by
    intro q hq
    have : (q.1, q.2.1) ∈ ms := h1.mem_iff.2 (List.mem_map.2 ⟨q, hq, rfl⟩)
    rw [← e] at this
    obtain ⟨p, hp0, hp1⟩ := List.mem_map.1 this
    exact ⟨p, hp0, congrArg Prod.fst hp1⟩
  have inR : ∀ q ∈ ps, (q.1, q.2.2) ∈ ms' := fun q hq => h2.mem_iff.2 (List.mem_map.2 ⟨q, hq, rfl⟩)
  refine ⟨ms'.map fun m => (m.1, m.2, (lastV ps0 m.1).getD .unit), ?_, ⟨hg.1, ?_, hg.2.2.1, fun i f w hf hw => ?_⟩, ?_⟩
  · rw [List.map_map]
    exact List.map_id _
  · intro z hz
    obtain ⟨m, hm', rfl⟩ := List.mem_map.1 hz
    obtain ⟨q, hq, q1, _⟩ := right m hm'
    obtain ⟨p, hp0, hp1⟩ := inL q hq
    have := hg.2.1 p hp0
    rw [hp1, q1] at this
    exact this
  · have h := hg.2.2.2 i f w hf hw
    have hfm := List.mem_of_getElem? hf
    unfold FieldGets at h ⊢
    split
    · rename_i hs; rw [if_pos hs] at h; exact h
    · rename_i hs
      rw [if_neg hs] at h
      have hs : f.skip = false := by simpa using hs
      rcases h with ⟨a, p, b, h3, h4, h5, h6⟩ | ⟨h3, h4, h5⟩
      · left
        obtain ⟨q, hq, q1, q2⟩ := left p (by rw [h3]; simp)
        have hl := lastV_split h3 h4 h5
        obtain ⟨a', y, b', g1, g2, g3⟩ := last_split (f := fun m : List Char × RTree => m.1 == f.jsonName) (inR q hq)
          (by simp [q1, h4])
        have g2 : y.1 = f.jsonName := by simpa using g2
        refine ⟨_, (y.1, y.2, (lastV ps0 y.1).getD .unit), _, by rw [g1, List.map_append, List.map_cons], g2, ?_, ?_⟩
        · intro z hz
          obtain ⟨z', hz', rfl⟩ := List.mem_map.1 hz
          simpa using g3 z' hz'
        · rw [h6, g2, hl]; rfl
      · right
        refine ⟨fun z hz hn => ?_, h4, h5⟩
        obtain ⟨m, hm', rfl⟩ := List.mem_map.1 hz
        obtain ⟨q, hq, q1, _⟩ := right m hm'
        obtain ⟨p, hp0, hp1⟩ := inL q hq
        exact h3 p hp0 (hp1.trans (q1.trans hn))
  · intro z hz f hf hs hn
    obtain ⟨m, hm', rfl⟩ := List.mem_map.1 hz
    obtain ⟨q, hq, q1, q2⟩ := right m hm'
    obtain ⟨p, hp0, hp1⟩ := inL q hq
    obtain ⟨a, y, b, g1, g2, g3⟩ := last_split (f := fun x : RMember => x.1 == m.1) hp0 (by simp [hp1, q1])
    have g2 : y.1 = m.1 := by simpa using g2
    have hl := lastV_split g1 g2 (fun z hz => by simpa using g3 z hz)
    have hy : y ∈ ps0 := by rw [g1]; simp
    have hny : f.jsonName = y.1 := hn.trans g2.symm
    obtain ⟨q', hq', q1', q2'⟩ := left y hy
    have := pairwise_unique hp hq hq' (q1.trans (g2.symm.trans q1'.symm))
    subst this
    show RonMeans env fl f.ty m.2 ((lastV ps0 m.1).getD .unit)
    rw [hl, ← q2]
    exact hR q hq f hf hs (hn.trans q1.symm) _ (q2' ▸ hm y hy f hf hs hny)

theorem DurMembers.swap {a b : RTree × RTree} {s n : Nat} (h : DurMembers [a, b] s n) : DurMembers [b, a] s n := by
  unfold DurMembers at *
  rcases h with h | h | h
  · injection h with h1 h2; injection h2 with h2 _; subst h1; subst h2; exact .inr (.inl rfl)
  · injection h with h1 h2; injection h2 with h2 _; subst h1; subst h2; exact .inl rfl
  · cases h.1

theorem VariantCalled.same {vars : List Variant} {w : List Char} {j j' : Nat} {v v' : Variant} (h : VariantCalled vars w j v)
    (h' : VariantCalled vars w j' v') : j = j' ∧ v = v' := by
  have : j = j' := by
    rcases Nat.lt_trichotomy j j' with h1 | h1 | h1
    · exact absurd h.2.1 (h'.2.2.2 j h1 v h.1)
    · exact h1
    · exact absurd h'.2.1 (h.2.2.2 j' h1 v' h'.1)
  subst this
  exact ⟨rfl, Option.some.inj (h.1.symm.trans h'.1)⟩

/-- What a field of a RON struct gets, by the last member of its name. -/
theorem fieldGets_iff {cd : Bool} {ps : List RMember} {f : Field} {w : Val} : FieldGets cd ps f w ↔
    if f.skip = true then w = f.absentValue else
      match lastV ps f.jsonName with
      | some v => w = v
      | none => f.mayBeAbsent cd ∧ w = f.absentValue := by
  unfold FieldGets
  split
  · rfl
  · rcases Classical.em (∃ q ∈ ps, q.1 = f.jsonName) with ⟨q, hq, hn⟩ | hno
    · obtain ⟨a, y, b, g1, g2, g3⟩ := last_split (f := fun m : RMember => m.1 == f.jsonName) hq (by simp [hn])
      have g2 : y.1 = f.jsonName := by simpa using g2
      have hl := lastV_split g1 g2 (fun z hz => by simpa using g3 z hz)
      rw [hl]
      constructor
      · rintro (⟨a', p, b', h1, h2, h3, h4⟩ | ⟨h, _⟩)
        · have := lastV_split h1 h2 h3
          rw [hl] at this
          injection this with this
          rw [h4, this]
        · exact absurd hn (h q hq)
      · intro h
        exact .inl ⟨a, y, b, g1, g2, fun z hz => by simpa using g3 z hz, h⟩
    · have hl : lastV ps f.jsonName = none := by
        unfold lastV
        rw [List.find?_eq_none.2 fun q hq => by
          have : q.1 ≠ f.jsonName := fun e => hno ⟨q, List.mem_reverse.1 hq, e⟩
          simpa using this]
        rfl
      rw [hl]
      constructor
      · rintro (⟨a', p, b', h1, h2, _⟩ | ⟨_, h⟩)
        · exact absurd ⟨p, by rw [h1]; simp, h2⟩ hno
        · exact h
      · intro h
        exact .inr ⟨fun q hq e => hno ⟨q, hq, e⟩, h⟩

/-- A member `None` of an `Option` field supplies what its absence does. -/
theorem none_same {cd : Bool} {fs : List Field} {vs : List Val} {a b : List RMember} {f : Field} {x : RTree}
    (hf : f ∈ fs) (hn : f.NoneIsAbsent cd) (hm : ∀ m ∈ a ++ b, m.1 ≠ f.jsonName) :
    FieldsGet cd fs (a ++ (f.jsonName, x, .none) :: b) vs ↔ FieldsGet cd fs (a ++ b) vs := by
  obtain ⟨h1, _, h4, h5, h6⟩ := hn
  have key : DistinctNames fs → ∀ g ∈ fs, ∀ w, FieldGets cd (a ++ (f.jsonName, x, .none) :: b) g w ↔ FieldGets cd (a ++ b) g w := by
    intro hd g hg w
    rw [fieldGets_iff, fieldGets_iff]
    split
    · rfl
    · rename_i hs
      have hs : g.skip = false := by simpa using hs
      rcases Classical.em (f.jsonName = g.jsonName) with e | e
      · cases names_same hd hf hg h1 hs e
        rw [lastV_split (a := a) (b := b) (p := (f.jsonName, x, .none)) rfl rfl
          (fun q hq => hm q (List.mem_append_right _ hq)), lastV_none hm]
        simp only [h5]
        exact ⟨fun h => ⟨h4, h⟩, fun h => h.2⟩
      · rw [lastV_skip e]
  unfold FieldsGet
  constructor
  · rintro ⟨h, hk, h7, h8⟩
    refine ⟨h, fun p hp => hk p ?_, h7, fun i g w hg hw => (key h g (List.mem_of_getElem? hg) w).1 (h8 i g w hg hw)⟩
    rcases List.mem_append.1 hp with h | h <;> simp [h]
  · rintro ⟨h, hk, h7, h8⟩
    refine ⟨h, fun p hp => ?_, h7, fun i g w hg hw => (key h g (List.mem_of_getElem? hg) w).2 (h8 i g w hg hw)⟩
    rcases List.mem_append.1 hp with h | h
    · exact hk p (List.mem_append_left _ h)
    · rcases List.mem_cons.1 h with rfl | h
      · exact ⟨h6, f, hf, h1, rfl⟩
      · exact hk p (List.mem_append_right _ h)

/-- Leaving out the member `None`. -/
theorem none_drop {cd : Bool} {fs : List Field} {vs : List Val} {ps0 : List RMember}
    {a b : List (List Char × RTree)} {f : Field} (hf : f ∈ fs) (hn : f.NoneIsAbsent cd) (hm : ∀ m ∈ a ++ b, m.1 ≠ f.jsonName)
    (e : ps0.map (fun p => (p.1, p.2.1)) = a ++ (f.jsonName, .word ['N', 'o', 'n', 'e']) :: b) (hg : FieldsGet cd fs ps0 vs)
    (hr : ∀ p ∈ ps0, ∀ f ∈ fs, f.skip = false → f.jsonName = p.1 → RonMeans env fl f.ty p.2.1 p.2.2) :
    ∃ qs : List RMember, qs.map (fun p => (p.1, p.2.1)) = a ++ b ∧ FieldsGet cd fs qs vs ∧
      ∀ p ∈ qs, ∀ f ∈ fs, f.skip = false → f.jsonName = p.1 → RonMeans env fl f.ty p.2.1 p.2.2 := by
  obtain ⟨pa, pr, rfl, ea, er⟩ := List.map_eq_append_iff.1 e
  obtain ⟨⟨k, x, v⟩, pb, rfl, ek, eb⟩ := List.map_eq_cons_iff.1 er
  injection ek with ek ex
  have hv : v = .none := by
    have := hr (k, x, v) (by simp) f hf hn.1 ek.symm
    obtain ⟨t, ht⟩ := hn.2.1
    rw [ht] at this
    have hx : x = .word ['N', 'o', 'n', 'e'] := ex
    subst hx
    generalize hx : RTree.word ['N', 'o', 'n', 'e'] = y at this
    cases this with
    | none => rfl
    | some h _ => rw [← hx] at h; exact absurd rfl h
  have ek : k = f.jsonName := ek
  subst ek
  subst hv
  have hm' : ∀ m ∈ pa ++ pb, m.1 ≠ f.jsonName := by
    intro m hm1
    have : (m.1, m.2.1) ∈ a ++ b := by
      rw [← ea, ← eb, ← List.map_append]; exact List.mem_map.2 ⟨m, hm1, rfl⟩
    exact hm _ this
  refine ⟨pa ++ pb, by rw [List.map_append, ea, eb], (none_same hf hn hm').1 hg, fun p hp => hr p ?_⟩
  rcases List.mem_append.1 hp with h | h <;> simp [h]

/-- Putting in the member `None`. -/
theorem none_add {cd : Bool} {fs : List Field} {vs : List Val} {ps0 : List RMember}
    {a b : List (List Char × RTree)} {f : Field} (hf : f ∈ fs) (hn : f.NoneIsAbsent cd) (hm : ∀ m ∈ a ++ b, m.1 ≠ f.jsonName)
    (e : ps0.map (fun p => (p.1, p.2.1)) = a ++ b) (hg : FieldsGet cd fs ps0 vs)
    (hr : ∀ p ∈ ps0, ∀ f ∈ fs, f.skip = false → f.jsonName = p.1 → RonMeans env fl f.ty p.2.1 p.2.2) :
    ∃ qs : List RMember, qs.map (fun p => (p.1, p.2.1)) = a ++ (f.jsonName, .word ['N', 'o', 'n', 'e']) :: b ∧ FieldsGet cd fs qs vs ∧
      ∀ p ∈ qs, ∀ f ∈ fs, f.skip = false → f.jsonName = p.1 → RonMeans env fl f.ty p.2.1 p.2.2 := by
  obtain ⟨pa, pb, rfl, ea, eb⟩ := List.map_eq_append_iff.1 e
  have hm' : ∀ m ∈ pa ++ pb, m.1 ≠ f.jsonName := by
    intro m hm1
    have : (m.1, m.2.1) ∈ a ++ b := by
      rw [← ea, ← eb, ← List.map_append]; exact List.mem_map.2 ⟨m, hm1, rfl⟩
    exact hm _ this
  refine ⟨pa ++ (f.jsonName, .word ['N', 'o', 'n', 'e'], .none) :: pb, by rw [List.map_append, List.map_cons, ea, eb],
    (none_same hf hn hm').2 hg, ?_⟩
  intro p hp g hg' hs hnm
  rcases List.mem_append.1 hp with h | h
  · exact hr p (List.mem_append_left _ h) g hg' hs hnm
  · rcases List.mem_cons.1 h with rfl | h
    · cases names_same hg.1 hf hg' hn.1 hs hnm.symm
      obtain ⟨t, ht⟩ := hn.2.1
      rw [ht]
      exact .none
    · exact hr p (List.mem_append_right _ h) g hg' hs hnm

theorem RReadAlike.symm {t : Ty} {x x' : RTree} (h : RReadAlike env fl t x x') : RReadAlike env fl t x' x :=
  ⟨h.1.symm, h.2.1.symm, fun v => (h.2.2 v).symm⟩

theorem RRearranged.means {B : Ty → RTree → RTree → Prop} (hB : ∀ t x x', B t x x' → RReadAlike env fl t x x') {t : Ty} {x x' : RTree} (h : RRearranged env B t x x') :
    ∀ v, RonMeans env fl t x v → RonMeans env fl t x' v := by
  induction h with
  | refl => exact fun v h => h
  | swap h => exact fun v hv => ((hB _ _ _ h).2.2 v).1 hv
  | @dur a b tr tr' =>
    intro v h
    generalize hJ : RTree.map [a, b] tr = x at h
    cases h with
    | dur h1 h2 h3 => cases hJ; exact .dur h1.swap h2 h3
  | @time a b tr tr' =>
    intro v h
    generalize hJ : RTree.map [a, b] tr = x at h
    cases h with
    | epoch => cases hJ
    | time h1 h2 h3 => cases hJ; exact .time h1.swap h2 h3
  | @option t x x' h ih =>
    intro v hv
    cases hv with
    | none => rw [h.isNone hB rfl]; exact .none
    | some hn hm => exact .some (h.notNone hB hn) (ih _ hm)
  | box _ ih => intro v hv; cases hv with | box hv => exact .box (ih _ hv)
  | @array t tr tr' ps _ ih =>
    intro v h
    generalize hJ : RTree.tuple (ps.map (·.1)) tr = x at h
    generalize hn : ps.length = n at h
    cases h with
    | array qs hl hq =>
      injection hJ with e _
      obtain ⟨rs, r1, r2, r3⟩ := carry (R := fun J v => RonMeans env fl t J v) ps qs e.symm ih hq
      rw [← r1, ← r2]
      refine .array rs ?_ r3
      have := congrArg List.length r1
      simpa [hn] using this
  | @seq c t tr tr' ps hc _ ih =>
    intro v h
    have go : ∀ qs : List (RTree × Val), qs.map (·.1) = ps.map (·.1) → (∀ q ∈ qs, RonMeans env fl t q.1 q.2) →
        ∃ rs : List (RTree × Val), rs.map (·.1) = ps.map (·.2) ∧ rs.map (·.2) = qs.map (·.2) ∧ ∀ r ∈ rs, RonMeans env fl t r.1 r.2 :=
      fun qs e hq => carry (R := fun J v => RonMeans env fl t J v) ps qs e ih hq
    generalize hJ : RTree.list (ps.map (·.1)) tr = J at h
    rcases hc with rfl | rfl | rfl | rfl
    · cases h with
      | vec qs hq =>
        injection hJ with e _
        obtain ⟨rs, r1, r2, r3⟩ := go qs e.symm hq
        rw [← r1, ← r2]; exact .vec rs r3
    · cases h with
      | linked qs hq =>
        injection hJ with e _
        obtain ⟨rs, r1, r2, r3⟩ := go qs e.symm hq
        rw [← r1, ← r2]; exact .linked rs r3
    · cases h with
      | hset qs hq =>
        injection hJ with e _
        obtain ⟨rs, r1, r2, r3⟩ := go qs e.symm hq
        rw [← r1, ← r2]; exact .hset rs r3
    · cases h with
      | bset qs hq hs =>
        injection hJ with e _
        obtain ⟨rs, r1, r2, r3⟩ := go qs e.symm hq
        rw [← r1]; exact .bset rs r3 (r2 ▸ hs)
  | @tuple c tr tr' ps hc _ ih =>
    intro v h
    have go : ∀ qs : List (Ty × RTree × Val), qs.map (·.1) = ps.map (·.1) → qs.map (·.2.1) = ps.map (·.2.1) →
        (∀ q ∈ qs, RonMeans env fl q.1 q.2.1 q.2.2) → ∃ rs : List (Ty × RTree × Val), rs.map (·.1) = ps.map (·.1) ∧
        rs.map (·.2.1) = ps.map (·.2.2) ∧ rs.map (·.2.2) = qs.map (·.2.2) ∧ ∀ r ∈ rs, RonMeans env fl r.1 r.2.1 r.2.2 :=
      fun qs et e hq => carryT ps qs et e ih hq
    generalize hJ : RTree.tuple (ps.map (·.2.1)) tr = J at h
    rcases hc with ⟨a, b, rfl, he⟩ | ⟨a, b, d, rfl, he⟩ | ⟨a, b, d, e, rfl, he⟩ | ⟨i, trans, rfl, he⟩
    · cases h with
      | pair qs ht hq =>
        injection hJ with e _
        obtain ⟨rs, r0, r1, r2, r3⟩ := go qs (ht.trans he.symm) e.symm hq
        rw [← r1, ← r2]; exact .pair rs (r0.trans he) r3
    · cases h with
      | triple qs ht hq =>
        injection hJ with e _
        obtain ⟨rs, r0, r1, r2, r3⟩ := go qs (ht.trans he.symm) e.symm hq
        rw [← r1, ← r2]; exact .triple rs (r0.trans he) r3
    · cases h with
      | quad qs ht hq =>
        injection hJ with e' _
        obtain ⟨rs, r0, r1, r2, r3⟩ := go qs (ht.trans he.symm) e'.symm hq
        rw [← r1, ← r2]; exact .quad rs (r0.trans he) r3
    · cases h with
      | struct _ h => cases hJ
      | tupleStruct qs h hq =>
        rw [he] at h; injection h with h; injection h with h ht
        injection hJ with e _
        obtain ⟨rs, r0, r1, r2, r3⟩ := go qs h.symm e.symm hq
        rw [← r1, ← r2]
        exact .tupleStruct rs (by rw [r0]; exact he) r3
      | variant h => cases hJ
      | tupleVariant _ h => cases hJ
      | structVariant _ h => cases hJ
  | @map c k t tr tr' ps hc _ _ ih1 ih2 =>
    intro v h
    have go : ∀ (ps : List ((RTree × RTree) × (RTree × RTree))) (qs : List ((RTree × Val) × (RTree × Val))),
        (∀ p ∈ ps, ∀ v, RonMeans env fl k p.1.1 v → RonMeans env fl k p.1.2 v) →
        (∀ p ∈ ps, ∀ v, RonMeans env fl t p.2.1 v → RonMeans env fl t p.2.2 v) →
        qs.map (fun p => (p.1.1, p.2.1)) = ps.map (fun p => (p.1.1, p.2.1)) →
        (∀ q ∈ qs, RonMeans env fl k q.1.1 q.1.2) → (∀ q ∈ qs, RonMeans env fl t q.2.1 q.2.2) →
        ∃ rs : List ((RTree × Val) × (RTree × Val)), rs.map (fun p => (p.1.1, p.2.1)) = ps.map (fun p => (p.1.2, p.2.2)) ∧
          rs.map (fun p => (p.1.2, p.2.2)) = qs.map (fun p => (p.1.2, p.2.2)) ∧
          (∀ q ∈ rs, RonMeans env fl k q.1.1 q.1.2) ∧ ∀ q ∈ rs, RonMeans env fl t q.2.1 q.2.2 := by
      intro ps
      induction ps with
      | nil =>
        intro qs _ _ e _ _
        cases qs with
        | nil => exact ⟨[], rfl, rfl, by simp, by simp⟩
        | cons q qs => cases e
      | cons p ps ih =>
        intro qs i1 i2 e h1 h2
        cases qs with
        | nil => cases e
        | cons q qs =>
          simp only [List.map_cons, List.cons.injEq, Prod.mk.injEq] at e
          obtain ⟨rs, r1, r2, r3, r4⟩ := ih qs (fun p hp => i1 p (List.mem_cons_of_mem _ hp)) (fun p hp => i2 p (List.mem_cons_of_mem _ hp))
            e.2 (fun q hq => h1 q (List.mem_cons_of_mem _ hq)) (fun q hq => h2 q (List.mem_cons_of_mem _ hq))
          refine ⟨((p.1.2, q.1.2), (p.2.2, q.2.2)) :: rs, by simp [r1], by simp [r2], ?_, ?_⟩
          · intro r hr
            rcases List.mem_cons.1 hr with rfl | hr
            · exact i1 p List.mem_cons_self _ (e.1.1 ▸ h1 q List.mem_cons_self)
            · exact r3 r hr
          · intro r hr
            rcases List.mem_cons.1 hr with rfl | hr
            · exact i2 p List.mem_cons_self _ (e.1.2 ▸ h2 q List.mem_cons_self)
            · exact r4 r hr
    generalize hJ : RTree.map (ps.map fun p => (p.1.1, p.2.1)) tr = J at h
    have e1 : ∀ {xs ys : List ((RTree × Val) × (RTree × Val))}, xs.map (fun p => (p.1.2, p.2.2)) = ys.map (fun p => (p.1.2, p.2.2)) →
        xs.map (fun p => Val.entry p.1.2 p.2.2) = ys.map (fun p => Val.entry p.1.2 p.2.2) ∧
        xs.map (fun p => p.1.2) = ys.map (fun p => p.1.2) := by
      intro xs ys h
      have h1 := congrArg (List.map fun p : Val × Val => Val.entry p.1 p.2) h
      have h2 := congrArg (List.map fun p : Val × Val => p.1) h
      simp only [List.map_map, Function.comp_def] at h1 h2
      exact ⟨h1, h2⟩
    rcases hc with rfl | rfl
    · cases h with
      | hmap qs h1 h2 h3 h4 =>
        injection hJ with e _
        obtain ⟨rs, r1, r2, r3, r4⟩ := go ps qs ih1 ih2 e.symm h1 h2
        rw [← r1]
        exact .hmap rs r3 r4 ((e1 r2).1 ▸ h3) ((e1 r2).2 ▸ h4)
    · cases h with
      | bmap qs h1 h2 h3 h4 =>
        injection hJ with e _
        obtain ⟨rs, r1, r2, r3, r4⟩ := go ps qs ih1 ih2 e.symm h1 h2
        rw [← r1]
        exact .bmap rs r3 r4 ((e1 r2).1 ▸ h3) h4
  | @struct i fs cd nul tr tr' ms ms' ps he hp h1 h2 _ ih =>
    intro v h
    generalize hJ : RTree.fields ms tr = K at h
    cases h with
    | struct ps0 h hg hm =>
      rw [he] at h; cases h
      injection hJ with e _
      obtain ⟨qs, q1, q2, q3⟩ := ron_members_same hp h1 h2 ih e.symm hg hm
      rw [← q1]
      exact .struct qs he q2 q3
    | tupleStruct qs h hq => cases hJ
    | variant h => cases hJ
    | tupleVariant _ h => cases hJ
    | structVariant _ h => cases hJ
  | @structVariant i j vars fs w tr tr' var ms ms' ps he hv hs hp h1 h2 _ ih =>
    intro v h
    generalize hJ : RTree.ctor w (.fields ms tr) = K at h
    cases h with
    | struct ps0 h => cases hJ
    | tupleStruct qs h hq => cases hJ
    | variant h => cases hJ
    | tupleVariant _ h => injection hJ with _ e; cases e
    | structVariant ps0 h hv' hs' hg hm =>
      rw [he] at h; cases h
      injection hJ with en e
      subst en
      injection e with e _
      obtain ⟨rfl, rfl⟩ := hv.same hv'
      rw [hs] at hs'; cases hs'
      obtain ⟨qs, q1, q2, q3⟩ := ron_members_same hp h1 h2 ih e.symm hg hm
      rw [← q1]
      exact .structVariant qs he hv hs q2 q3
  | @tupleVariant i j vars w tr tr' var ps he hv hs _ ih =>
    intro v h
    generalize hJ : RTree.ctor w (.tuple (ps.map (·.2.1)) tr) = K at h
    cases h with
    | struct ps0 h => cases hJ
    | tupleStruct qs h hq => cases hJ
    | variant h => cases hJ
    | structVariant _ h => injection hJ with _ e; cases e
    | tupleVariant qs h hv' hs' hq =>
      rw [he] at h; cases h
      injection hJ with en e
      subst en
      injection e with e _
      obtain ⟨rfl, rfl⟩ := hv.same hv'
      rw [hs] at hs'
      injection hs' with hs'
      obtain ⟨rs, r0, r1, r2, r3⟩ := carryT ps qs hs'.symm e.symm ih hq
      rw [← r1, ← r2]
      exact .tupleVariant rs he hv (by rw [r0]; exact hs) r3
  | @dropNone i fs cd nul tr tr' f a b he hf hn hm =>
    intro v h
    generalize hJ : RTree.fields (a ++ (f.jsonName, .word ['N', 'o', 'n', 'e']) :: b) tr = K at h
    cases h with
    | struct ps0 h hg hr =>
      rw [he] at h; cases h
      injection hJ with e _
      obtain ⟨qs, q1, q2, q3⟩ := none_drop hf hn hm e.symm hg hr
      rw [← q1]
      exact .struct qs he q2 q3
    | tupleStruct qs h hq => cases hJ
    | variant h => cases hJ
    | tupleVariant _ h => cases hJ
    | structVariant _ h => cases hJ
  | @addNone i fs cd nul tr tr' f a b he hf hn hm =>
    intro v h
    generalize hJ : RTree.fields (a ++ b) tr = K at h
    cases h with
    | struct ps0 h hg hr =>
      rw [he] at h; cases h
      injection hJ with e _
      obtain ⟨qs, q1, q2, q3⟩ := none_add hf hn hm e.symm hg hr
      rw [← q1]
      exact .struct qs he q2 q3
    | tupleStruct qs h hq => cases hJ
    | variant h => cases hJ
    | tupleVariant _ h => cases hJ
    | structVariant _ h => cases hJ
  | @dropNoneVariant i j vars fs w tr tr' var f a b he hv hs hf hn hm =>
    intro v h
    generalize hJ : RTree.ctor w (.fields (a ++ (f.jsonName, .word ['N', 'o', 'n', 'e']) :: b) tr) = K at h
    cases h with
    | struct ps0 h => cases hJ
    | tupleStruct qs h hq => cases hJ
    | variant h => cases hJ
    | tupleVariant _ h => injection hJ with _ e; cases e
    | structVariant ps0 h hv' hs' hg hr =>
      rw [he] at h; cases h
      injection hJ with en e
      subst en
      injection e with e _
      obtain ⟨rfl, rfl⟩ := hv.same hv'
      rw [hs] at hs'; cases hs'
      obtain ⟨qs, q1, q2, q3⟩ := none_drop hf hn hm e.symm hg hr
      rw [← q1]
      exact .structVariant qs he hv hs q2 q3
  | @addNoneVariant i j vars fs w tr tr' var f a b he hv hs hf hn hm =>
    intro v h
    generalize hJ : RTree.ctor w (.fields (a ++ b) tr) = K at h
    cases h with
    | struct ps0 h => cases hJ
    | tupleStruct qs h hq => cases hJ
    | variant h => cases hJ
    | tupleVariant _ h => injection hJ with _ e; cases e
    | structVariant ps0 h hv' hs' hg hr =>
      rw [he] at h; cases h
      injection hJ with en e
      subst en
      injection e with e _
      obtain ⟨rfl, rfl⟩ := hv.same hv'
      rw [hs] at hs'; cases hs'
      obtain ⟨qs, q1, q2, q3⟩ := none_add hf hn hm e.symm hg hr
      rw [← q1]
      exact .structVariant qs he hv hs q2 q3
  | @bset t xs ys tr tr' hp =>
    intro v h
    generalize hJ : RTree.list xs tr = K at h
    cases h with
    | bset qs hq hs =>
      injection hJ with e _
      subst e
      obtain ⟨rs, hr, rfl⟩ := perm_map_inv _ hp
      exact .bset rs (fun p hp => hq p (hr.mem_iff.1 hp)) ⟨hs.1, fun x => (hs.2 x).trans (hr.map _).mem_iff.symm⟩
  | @bmap t tr tr' ms ms' hp hd' =>
    intro v h
    generalize hJ : RTree.map (ms.map fun m => (.str m.1, m.2)) tr = K at h
    cases h with
    | bmap qs h1 h2 h3 h4 =>
      injection hJ with e _
      have hp' : (qs.map fun p => (p.1.1, p.2.1)).Perm (ms'.map fun m => (RTree.str m.1, m.2)) := by rw [← e]; exact hp.map _
      obtain ⟨rs, hr, e'⟩ := perm_map_inv _ hp'
      have hkey : ∀ q ∈ qs, ∃ s, q.1.1 = .str s ∧ q.1.2 = .str s := by
        intro q hq
        have := h1 q hq
        generalize hx : q.1.1 = x at this
        generalize hy : q.1.2 = y at this
        cases this with
        | str => exact ⟨_, rfl, rfl⟩
      have hdq : qs.Pairwise fun p q => p.1.1 ≠ q.1.1 := by
        have : (ms.map fun m => (RTree.str m.1, m.2)).Pairwise fun p q => p.1 ≠ q.1 :=
          List.pairwise_map.2 (hd'.imp fun h e => h (RTree.str.inj e))
        rw [e] at this
        exact (List.pairwise_map.1 this).imp fun h => h
      rw [e']
      refine .bmap rs (fun p hp => h1 p (hr.mem_iff.1 hp)) (fun p hp => h2 p (hr.mem_iff.1 hp)) (lastWins_perm (hr.map _).symm ?_ ?_ h3) h4
      · intro w hw
        obtain ⟨q, _, rfl⟩ := List.mem_map.1 hw
        exact ⟨_, _, rfl⟩
      · refine List.pairwise_map.2 (List.Pairwise.imp_of_mem (fun {p q} hp hq hne => ?_) hdq)
        obtain ⟨a, a1, a2⟩ := hkey p hp
        obtain ⟨b, b1, b2⟩ := hkey q hq
        show p.1.2 ≠ q.1.2
        rw [a1, b1] at hne
        rw [a2, b2]
        intro h
        exact hne (by rw [Val.str.inj h])

end NS
