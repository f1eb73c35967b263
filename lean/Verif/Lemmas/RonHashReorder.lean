import Verif.Spec.RonHashReorder
import Verif.Lemmas.HashReorder
import Verif.Lemmas.RonReorder
/-! # Rehashed RON values mean values that differ in the order of hash containers -/
namespace NS
variable {env : Env} {fl : FloatOps}

theorem RRehashed.notNone {t : Ty} {x x' : RTree} (h : RRehashed env t x x') (hn : NotNone x) : NotNone x' := by
  induction h with
  | refl => exact hn
  | option _ ih | box _ ih => exact ih hn
  | _ => exact hn

theorem RRehashed.isWord {t : Ty} {x x' : RTree} (h : RRehashed env t x x') {w : List Char} (hn : x = .word w) : x' = .word w := by
  induction h with
  | refl => exact hn
  | option _ ih | box _ ih => exact ih hn
  | _ => cases hn

theorem ron_rehashT (ps : List (Ty × RTree × RTree)) (qs : List (Ty × RTree × Val)) (et : qs.map (·.1) = ps.map (·.1))
    (e : qs.map (·.2.1) = ps.map (·.2.1))
    (h : ∀ p ∈ ps, ∀ v, RonMeans env fl p.1 p.2.1 v → ∃ w, RonMeans env fl p.1 p.2.2 w ∧ Reordered env p.1 v w)
    (hq : ∀ q ∈ qs, RonMeans env fl q.1 q.2.1 q.2.2) :
    ∃ (rs : List (Ty × RTree × Val)) (ts : List (Ty × Val × Val)),
      rs.map (·.1) = ps.map (·.1) ∧ ts.map (·.1) = ps.map (·.1) ∧ rs.map (·.2.1) = ps.map (·.2.2) ∧
      ts.map (·.2.1) = qs.map (·.2.2) ∧ ts.map (·.2.2) = rs.map (·.2.2) ∧
      (∀ r ∈ rs, RonMeans env fl r.1 r.2.1 r.2.2) ∧ ∀ r ∈ ts, Reordered env r.1 r.2.1 r.2.2 := by
  obtain ⟨rs, h1, h2, h3, h4, h5⟩ := carryPT (S := fun t J v => RonMeans env fl t J v) (Q := Reordered env) ps qs et e h hq
  refine ⟨rs.map fun r => (r.1, r.2.1, r.2.2.2), rs.map fun r => (r.1, r.2.2.1, r.2.2.2), ?_, ?_, ?_, ?_, ?_, ?_, ?_⟩
  · rw [List.map_map]; exact h1
  · rw [List.map_map]; exact h1
  · rw [List.map_map]; exact h2
  · rw [List.map_map]; exact h3
  · rw [List.map_map, List.map_map]; rfl
  · intro r hr; obtain ⟨q, hq, rfl⟩ := List.mem_map.1 hr; exact h4 q hq
  · intro r hr; obtain ⟨q, hq, rfl⟩ := List.mem_map.1 hr; exact h5 q hq

/-- What the fields get. -/
def gotR (ps : List RMember) (f : Field) : Val :=
  if f.skip = true then f.absentValue else (lastV ps f.jsonName).getD f.absentValue

theorem fieldGets_got {cd : Bool} {ps : List RMember} {f : Field} {w : Val} : FieldGets cd ps f w ↔
    w = gotR ps f ∧ (f.skip = false → lastV ps f.jsonName = none → f.mayBeAbsent cd) := by
  rw [fieldGets_iff]
  unfold gotR
  cases f.skip with
  | true => simp
  | false =>
    simp only [Bool.false_eq_true, if_false]
    cases lastV ps f.jsonName with
    | some v => simp
    | none => simp [and_comm]

theorem ron_gets_map {cd : Bool} {fs : List Field} {ps : List RMember} {vs : List Val} (h : FieldsGet cd fs ps vs) :
    vs = fs.map (gotR ps) := by
  refine List.ext_getElem? fun i => ?_
  rw [List.getElem?_map]
  cases hf : fs[i]? with
  | none =>
    have := List.getElem?_eq_none_iff.1 hf
    exact List.getElem?_eq_none_iff.2 (by rw [h.2.2.1]; exact this)
  | some f =>
    have hl : i < vs.length := by rw [h.2.2.1]; exact (List.getElem?_eq_some_iff.1 hf).1
    have hv : vs[i]? = some vs[i] := List.getElem?_eq_getElem hl
    rw [hv]
    have := (fieldGets_got.1 (h.2.2.2 i f _ hf hv)).1
    rw [this]; rfl

/-- The members of a struct, their values rehashed. -/
theorem ron_members_rehashed {cd : Bool} {fs : List Field} {ps : List (List Char × RTree × RTree)}
    (ih : ∀ p ∈ ps, ∀ f ∈ fs, f.skip = false → f.jsonName = p.1 → ∀ v, RonMeans env fl f.ty p.2.1 v →
      ∃ w, RonMeans env fl f.ty p.2.2 w ∧ Reordered env f.ty v w)
    {ps0 : List RMember} {vs : List Val} (e : ps0.map (fun p => (p.1, p.2.1)) = ps.map fun p => (p.1, p.2.1))
    (hg : FieldsGet cd fs ps0 vs)
    (hm : ∀ p ∈ ps0, ∀ f ∈ fs, f.skip = false → f.jsonName = p.1 → RonMeans env fl f.ty p.2.1 p.2.2) :
    ∃ (qs : List RMember) (tr : List (Field × Val × Val)), qs.map (fun p => (p.1, p.2.1)) = ps.map (fun p => (p.1, p.2.2)) ∧
      tr.map (·.1) = fs ∧ tr.map (·.2.1) = vs ∧ FieldsGet cd fs qs (tr.map (·.2.2)) ∧
      (∀ p ∈ qs, ∀ f ∈ fs, f.skip = false → f.jsonName = p.1 → RonMeans env fl f.ty p.2.1 p.2.2) ∧
      (∀ p ∈ tr, p.1.skip = true → p.2.1 = p.2.2) ∧ ∀ p ∈ tr, p.1.skip = false → Reordered env p.1.ty p.2.1 p.2.2 := by
  have hd := hg.1
  -- the members with both values
  have zip : ∀ (ps : List (List Char × RTree × RTree)) (ps0 : List RMember),
      (∀ p ∈ ps, ∀ f ∈ fs, f.skip = false → f.jsonName = p.1 → ∀ v, RonMeans env fl f.ty p.2.1 v →
        ∃ w, RonMeans env fl f.ty p.2.2 w ∧ Reordered env f.ty v w) →
      ps0.map (fun p => (p.1, p.2.1)) = ps.map (fun p => (p.1, p.2.1)) →
      (∀ p ∈ ps0, ∀ f ∈ fs, f.skip = false → f.jsonName = p.1 → RonMeans env fl f.ty p.2.1 p.2.2) →
      ∃ rs : List (RMember × RTree × Val), rs.map (·.1) = ps0 ∧ rs.map (fun r => (r.1.1, r.2.1)) = ps.map (fun p => (p.1, p.2.2)) ∧
        ∀ r ∈ rs, ∀ f ∈ fs, f.skip = false → f.jsonName = r.1.1 → RonMeans env fl f.ty r.2.1 r.2.2 ∧
          Reordered env f.ty r.1.2.2 r.2.2 := by
    intro ps
    induction ps with
    | nil =>
      intro ps0 _ e _
      cases ps0 with
      | nil => exact ⟨[], rfl, rfl, by simp⟩
      | cons q qs => cases e
    | cons p ps ihl =>
      intro ps0 ih e hm
      cases ps0 with
      | nil => cases e
      | cons q qs =>
        simp only [List.map_cons, List.cons.injEq, Prod.mk.injEq] at e
        obtain ⟨rs, h1, h2, h3⟩ := ihl qs (fun p hp => ih p (List.mem_cons_of_mem _ hp)) e.2 (fun q hq => hm q (List.mem_cons_of_mem _ hq))
        have : ∃ w, ∀ f ∈ fs, f.skip = false → f.jsonName = q.1 → RonMeans env fl f.ty p.2.2 w ∧ Reordered env f.ty q.2.2 w := by
          rcases Classical.em (∃ f ∈ fs, f.skip = false ∧ f.jsonName = q.1) with ⟨f, hf, hs, hn⟩ | hno
          · obtain ⟨w, hw⟩ := ih p List.mem_cons_self f hf hs (hn.trans e.1.1) q.2.2 (e.1.2 ▸ hm q List.mem_cons_self f hf hs hn)
            refine ⟨w, fun g hg sg ng => ?_⟩
            cases names_same hd hf hg hs sg (hn.trans ng.symm)
            exact hw
          · exact ⟨.unit, fun f hf hs hn => (hno ⟨f, hf, hs, hn⟩).elim⟩
        obtain ⟨w, hw⟩ := this
        refine ⟨(q, p.2.2, w) :: rs, by simp [h1], by simp [h2, e.1.1], ?_⟩
        intro r hr
        rcases List.mem_cons.1 hr with rfl | hr
        · exact hw
        · exact h3 r hr
  obtain ⟨rs, r1, r2, r3⟩ := zip ps ps0 ih e hm
  subst r1
  let qs : List RMember := rs.map fun r => (r.1.1, r.2.1, r.2.2)
  have hl : ∀ k, (lastV (rs.map (·.1)) k = none ∧ lastV qs k = none) ∨
      ∃ r ∈ rs, r.1.1 = k ∧ lastV (rs.map (·.1)) k = some r.1.2.2 ∧ lastV qs k = some r.2.2 := by
    intro k
    show (_ ∧ lastV (rs.map _) k = none) ∨ ∃ r ∈ rs, _ ∧ _ ∧ lastV (rs.map _) k = _
    rw [lastV_map, lastV_map]
    cases h : rs.reverse.find? (fun r => r.1.1 == k) with
    | none => exact .inl ⟨rfl, rfl⟩
    | some r => exact .inr ⟨r, List.mem_reverse.1 (List.mem_of_find?_eq_some h), by simpa using List.find?_some h, rfl, rfl⟩
  have hv := ron_gets_map hg
  refine ⟨qs, fs.map fun f => (f, gotR (rs.map (·.1)) f, gotR qs f), ?_, ?_, ?_, ?_, ?_, ?_, ?_⟩
  · simpa [qs, List.map_map, Function.comp_def] using r2
  · simp [List.map_map, Function.comp_def]
  · rw [List.map_map, hv]; rfl
  · rw [List.map_map]
    refine ⟨hg.1, fun p hp => ?_, by simp, fun i f w hf hw => ?_⟩
    · obtain ⟨r, hr, rfl⟩ := List.mem_map.1 hp
      exact hg.2.1 r.1 (List.mem_map.2 ⟨r, hr, rfl⟩)
    · rw [List.getElem?_map, hf] at hw
      injection hw with hw
      refine fieldGets_got.2 ⟨hw.symm, fun hs hn => ?_⟩
      have hv' : vs[i]? = some (gotR (rs.map (·.1)) f) := by rw [hv, List.getElem?_map, hf]; rfl
      refine (fieldGets_got.1 (hg.2.2.2 i f _ hf hv')).2 hs ?_
      rcases hl f.jsonName with h | ⟨r, _, _, _, h⟩
      · exact h.1
      · rw [h] at hn; cases hn
  · intro p hp f hf hs hn
    obtain ⟨r, hr, rfl⟩ := List.mem_map.1 hp
    exact (r3 r hr f hf hs hn).1
  · intro p hp hs
    obtain ⟨f, hf, rfl⟩ := List.mem_map.1 hp
    show gotR _ _ = gotR _ _
    have hs : f.skip = true := hs
    simp [gotR, hs]
  · intro p hp hs
    obtain ⟨f, hf, rfl⟩ := List.mem_map.1 hp
    have hs : f.skip = false := hs
    show Reordered env f.ty (gotR _ f) (gotR _ f)
    unfold gotR
    rw [if_neg (by simp [hs]), if_neg (by simp [hs])]
    rcases hl f.jsonName with ⟨h1, h2⟩ | ⟨r, hr, hn, h1, h2⟩
    · rw [h1, h2]; exact .same
    · rw [h1, h2]
      exact (r3 r hr f hf hs hn.symm).2

/-- The entries with both values. -/
theorem zipRon {t : Ty} : ∀ (ps : List (List Char × RTree × RTree)) (qs : List ((RTree × Val) × (RTree × Val))),
    (∀ p ∈ ps, ∀ v, RonMeans env fl t p.2.1 v → ∃ w, RonMeans env fl t p.2.2 w ∧ Reordered env t v w) →
    qs.map (fun p => (p.1.1, p.2.1)) = ronEntries (ps.map fun p => (p.1, p.2.1)) →
    (∀ q ∈ qs, RonMeans env fl .str q.1.1 q.1.2) → (∀ q ∈ qs, RonMeans env fl t q.2.1 q.2.2) →
    ∃ rs : List ((List Char × RTree) × Val × Val), rs.map (·.1) = ps.map (fun p => (p.1, p.2.2)) ∧
      qs.map (fun p => (p.1.2, p.2.2)) = rs.map (fun r => (Val.str r.1.1, r.2.1)) ∧
      ∀ r ∈ rs, RonMeans env fl t r.1.2 r.2.2 ∧ Reordered env t r.2.1 r.2.2 := by
  intro ps
  induction ps with
  | nil =>
    intro qs _ e _ _
    cases qs with
    | nil => exact ⟨[], rfl, rfl, by simp⟩
    | cons q qs => cases e
  | cons p ps ihl =>
    intro qs ih e h1 h2
    cases qs with
    | nil => cases e
    | cons q qs =>
      simp only [ronEntries, List.map_cons, List.cons.injEq, Prod.mk.injEq] at e
      obtain ⟨rs, r1, r2, r3⟩ := ihl qs (fun p hp => ih p (List.mem_cons_of_mem _ hp)) e.2
        (fun q hq => h1 q (List.mem_cons_of_mem _ hq)) (fun q hq => h2 q (List.mem_cons_of_mem _ hq))
      have hk := h1 q List.mem_cons_self
      rw [e.1.1] at hk
      have hk : q.1.2 = .str p.1 := by
        generalize q.1.2 = y at hk
        cases hk with | str => rfl
      obtain ⟨w, hw⟩ := ih p List.mem_cons_self q.2.2 (e.1.2 ▸ h2 q List.mem_cons_self)
      refine ⟨((p.1, p.2.2), q.2.2, w) :: rs, by simp [r1], by simp [r2, hk], ?_⟩
      intro r hr
      rcases List.mem_cons.1 hr with rfl | hr
      · exact hw
      · exact r3 r hr

theorem RRehashed.means (hk : LawfulKeys env) {t : Ty} {x x' : RTree} (h : RRehashed env t x x') :
    ∀ v, RonMeans env fl t x v → ∃ w, RonMeans env fl t x' w ∧ Reordered env t v w := by
  induction h with
  | refl => exact fun v h => ⟨v, h, .same⟩
  | @hset t xs ys tr tr' hp =>
    intro v h
    generalize hJ : RTree.list xs tr = J at h
    cases h with
    | hset qs hq =>
      injection hJ with e _
      subst e
      obtain ⟨rs, hr, rfl⟩ := perm_map_inv _ hp
      exact ⟨_, .hset rs fun p hp => hq p (hr.mem_iff.1 hp), .hset (firsts_perm (hr.symm.map _))⟩
  | @hmap t tr tr' ms ps hd' hp _ ih =>
    intro v h
    generalize hJ : RTree.map (ronEntries (ps.map fun p => (p.1, p.2.1))) tr = J at h
    cases h with
    | @hmap _ _ _ r qs h1 h2 h3 h4 =>
      injection hJ with e _
      obtain ⟨rs, r1, r2, r3⟩ := zipRon ps qs ih e.symm h1 h2
      have hdr : rs.Pairwise fun a b => a.1.1 ≠ b.1.1 := by
        have : (rs.map (·.1)).Pairwise fun a b => a.1 ≠ b.1 := by
          rw [r1]; exact List.pairwise_map.2 hd'
        exact (List.pairwise_map (f := fun r : (List Char × RTree) × Val × Val => r.1)).1 this
      have hp' : (rs.map (·.1)).Perm ms := by rw [r1]; exact hp
      obtain ⟨us, hu, rfl⟩ := perm_map_inv _ hp'
      have hdu : us.Pairwise fun a b => a.1.1 ≠ b.1.1 := (hu.pairwise_iff (fun h => h.symm)).2 hdr
      -- the value read
      have hes : qs.map (fun p => Val.entry p.1.2 p.2.2) = rs.map fun r => Val.entry (.str r.1.1) r.2.1 := by
        have := congrArg (List.map fun p : Val × Val => Val.entry p.1 p.2) r2
        simpa only [List.map_map, Function.comp_def] using this
      have hks : qs.map (fun p => p.1.2) = rs.map fun r => Val.str r.1.1 := by
        have := congrArg (List.map fun p : Val × Val => p.1) r2
        simpa only [List.map_map, Function.comp_def] using this
      rw [hes] at h3
      rw [hks, firsts_id (List.pairwise_map.2 (hdr.imp fun h e => h (Val.str.inj e)))] at h4
      have hE : AllEntries (rs.map fun r => Val.entry (.str r.1.1) r.2.1) := by
        intro w hw
        obtain ⟨q, _, rfl⟩ := List.mem_map.1 hw
        exact ⟨_, _, rfl⟩
      have hdE : (rs.map fun r => Val.entry (.str r.1.1) r.2.1).Pairwise fun a b => a.key ≠ b.key :=
        List.pairwise_map.2 (hdr.imp fun h e => h (Val.str.inj e))
      have hdr' : r.Pairwise fun a b => a.key ≠ b.key := by
        have : (r.map Val.key).Pairwise (· ≠ ·) := by
          rw [h4]; exact List.pairwise_map.2 (hdr.imp fun h e => h (Val.str.inj e))
        exact List.pairwise_map.1 this
      have hre : r = rs.map fun r => Val.entry (.str r.1.1) r.2.1 := by
        refine List.ext_getElem? fun i => ?_
        rw [List.getElem?_map]
        have hi := congrArg (fun l => l[i]?) h4
        simp only [List.getElem?_map] at hi
        cases hx : r[i]? with
        | none => rw [hx] at hi; cases hy : rs[i]? with
          | none => rfl
          | some y => rw [hy] at hi; cases hi
        | some x =>
          rw [hx] at hi
          cases hy : rs[i]? with
          | none => rw [hy] at hi; cases hi
          | some y =>
            rw [hy] at hi
            injection hi with hi
            obtain ⟨k, v, rfl⟩ := h3.1 x (List.mem_of_getElem? hx)
            have hi : k = .str y.1.1 := hi
            have h5 := (mapGet_mem_iff h3.1 hdr').2 (List.mem_of_getElem? hx)
            rw [h3.2, ← lastVal_mapGet hE hdE, mapGet_mem_iff hE hdE] at h5
            obtain ⟨z, hz, hz'⟩ := List.mem_map.1 h5
            injection hz' with hz1 hz2
            have : z = y := by
              have hm := List.mem_of_getElem? hy
              rcases Classical.em (z = y) with h | h
              · exact h
              · exfalso
                have hsym : ∀ {a b : (List Char × RTree) × Val × Val}, a.1.1 ≠ b.1.1 → b.1.1 ≠ a.1.1 := fun h => h.symm
                exact pairwise_mem_ne hsym hdr hz hm h (Val.str.inj (hz1.trans hi))
            rw [← this, ← hz2, ← hz1]; rfl
      subst hre
      refine ⟨.seq (us.map fun r => Val.entry (.str r.1.1) r.2.2), ?_, ?_⟩
      · have := RonMeans.hmap (env := env) (fl := fl) (k := .str) (t := t) (tr := tr')
          (r := us.map fun r => Val.entry (.str r.1.1) r.2.2)
          (us.map fun r => ((RTree.str r.1.1, Val.str r.1.1), (r.1.2, r.2.2)))
          (by intro p hp; obtain ⟨q, _, rfl⟩ := List.mem_map.1 hp; exact .str)
          (by intro p hp; obtain ⟨q, hq, rfl⟩ := List.mem_map.1 hp; exact (r3 q (hu.mem_iff.1 hq)).1)
          (by
            rw [List.map_map]
            refine lastWins_self (fun w hw => ?_) (List.pairwise_map.2 (hdu.imp fun h e => h (Val.str.inj e)))
            obtain ⟨q, _, rfl⟩ := List.mem_map.1 hw
            exact ⟨_, _, rfl⟩)
          (by
            rw [List.map_map, List.map_map]
            exact (firsts_id (List.pairwise_map.2 (hdu.imp fun h e => h (Val.str.inj e)))).symm)
        rw [List.map_map] at this
        simpa [ronEntries, List.map_map, Function.comp_def] using this
      · have := Reordered.hmap (env := env) (k := .str) (t := t) (ws := us.map fun r => Val.entry (.str r.1.1) r.2.2)
          (rs.map fun r => (Val.str r.1.1, r.2.1, r.2.2))
          (by intro p hp; obtain ⟨q, hq, rfl⟩ := List.mem_map.1 hp; exact (r3 q hq).2)
          (by rw [List.map_map]; exact (hu.symm.map _))
        rwa [List.map_map] at this
  | @bmap t tr tr' ms ps hd' hp _ ih =>
    intro v h
    generalize hJ : RTree.map (ronEntries (ps.map fun p => (p.1, p.2.1))) tr = J at h
    cases h with
    | @bmap _ _ _ r qs h1 h2 h3 h4 =>
      injection hJ with e _
      obtain ⟨rs, r1, r2, r3⟩ := zipRon ps qs ih e.symm h1 h2
      have hdr : rs.Pairwise fun a b => a.1.1 ≠ b.1.1 := by
        have : (rs.map (·.1)).Pairwise fun a b => a.1 ≠ b.1 := by
          rw [r1]; exact List.pairwise_map.2 hd'
        exact (List.pairwise_map (f := fun r : (List Char × RTree) × Val × Val => r.1)).1 this
      have hp' : (rs.map (·.1)).Perm ms := by rw [r1]; exact hp
      obtain ⟨us, hu, rfl⟩ := perm_map_inv _ hp'
      have hes : qs.map (fun p => Val.entry p.1.2 p.2.2) = rs.map fun r => Val.entry (.str r.1.1) r.2.1 := by
        have := congrArg (List.map fun p : Val × Val => Val.entry p.1 p.2) r2
        simpa only [List.map_map, Function.comp_def] using this
      rw [hes] at h3
      have hdE : (rs.map fun r => Val.entry (.str r.1.1) r.2.1).Pairwise fun a b => a.key ≠ b.key :=
        List.pairwise_map.2 (hdr.imp fun h e => h (Val.str.inj e))
      have hperm := lastWins_sorted_perm hk (allEntries_zip _) hdE h3 h4
      obtain ⟨ws, hws, rfl⟩ := perm_map_inv _ hperm
      refine ⟨.seq (ws.map fun r => Val.entry (.str r.1.1) r.2.2), ?_, ?_⟩
      · have := RonMeans.bmap (env := env) (fl := fl) (k := .str) (t := t) (tr := tr')
          (r := ws.map fun r => Val.entry (.str r.1.1) r.2.2)
          (us.map fun r => ((RTree.str r.1.1, Val.str r.1.1), (r.1.2, r.2.2)))
          (by intro p hp; obtain ⟨q, _, rfl⟩ := List.mem_map.1 hp; exact .str)
          (by intro p hp; obtain ⟨q, hq, rfl⟩ := List.mem_map.1 hp; exact (r3 q (hu.mem_iff.1 hq)).1)
          (by
            rw [List.map_map]
            have hw := hws.symm.map fun r : (List Char × RTree) × Val × Val => Val.entry (.str r.1.1) r.2.2
            have hdR : (rs.map fun r : (List Char × RTree) × Val × Val => Val.entry (.str r.1.1) r.2.2).Pairwise fun a b => a.key ≠ b.key :=
              List.pairwise_map.2 (hdr.imp fun h e => h (Val.str.inj e))
            have hdW := (hw.pairwise_iff (fun h => h.symm)).1 hdR
            exact lastWins_perm (hw.symm.trans (hu.symm.map _)) (allEntries_zip _) hdW (lastWins_self (allEntries_zip _) hdW))
          (List.pairwise_map.2 (List.pairwise_map.1 h4))
        rw [List.map_map] at this
        simpa [ronEntries, List.map_map, Function.comp_def] using this
      · have := Reordered.bmap (env := env) (k := .str) (t := t) (ws.map fun r => (Val.str r.1.1, r.2.1, r.2.2))
          (by intro p hp; obtain ⟨q, hq, rfl⟩ := List.mem_map.1 hp; exact (r3 q (hws.mem_iff.1 hq)).2)
        simpa only [List.map_map, Function.comp_def] using this
  | @option t x x' h ih =>
    intro v hv
    cases hv with
    | none => rw [h.isWord rfl]; exact ⟨_, .none, .same⟩
    | some hn hm =>
      obtain ⟨w, h1, h2⟩ := ih _ hm
      exact ⟨_, .some (h.notNone hn) h1, .some h2⟩
  | box _ ih =>
    intro v hv
    cases hv with
    | box hv =>
      obtain ⟨w, h1, h2⟩ := ih _ hv
      exact ⟨_, .box h1, .box h2⟩
  | @seq c t tr tr' ps hc _ ih =>
    intro v h
    have go : ∀ qs : List (RTree × Val), qs.map (·.1) = ps.map (·.1) → (∀ q ∈ qs, RonMeans env fl t q.1 q.2) →
        ∃ rs : List (RTree × Val × Val), rs.map (·.1) = ps.map (·.2) ∧ rs.map (·.2.1) = qs.map (·.2) ∧
          (∀ r ∈ rs, RonMeans env fl t r.1 r.2.2) ∧ ∀ r ∈ rs, Reordered env t r.2.1 r.2.2 :=
      fun qs e hq => carryP (S := fun J v => RonMeans env fl t J v) ps qs e ih hq
    have back : ∀ {rs : List (RTree × Val × Val)}, (∀ r ∈ rs, RonMeans env fl t r.1 r.2.2) →
        ∀ p ∈ rs.map (fun r => (r.1, r.2.2)), RonMeans env fl t p.1 p.2 := by
      intro rs h p hp
      obtain ⟨r, hr, rfl⟩ := List.mem_map.1 hp
      exact h r hr
    have both : ∀ {rs : List (RTree × Val × Val)}, (∀ r ∈ rs, Reordered env t r.2.1 r.2.2) →
        ∀ p ∈ rs.map (fun r => r.2), Reordered env t p.1 p.2 := by
      intro rs h p hp
      obtain ⟨r, hr, rfl⟩ := List.mem_map.1 hp
      exact h r hr
    generalize hJ : RTree.list (ps.map (·.1)) tr = J at h
    rcases hc with rfl | rfl
    · cases h with
      | vec qs hq =>
        injection hJ with e _
        obtain ⟨rs, r1, r2, r3, r4⟩ := go qs e.symm hq
        have h1 := RonMeans.vec (tr := tr') _ (back r3)
        have h2 := Reordered.vec _ (both r4)
        simp only [List.map_map, Function.comp_def] at h1 h2
        rw [← r1, ← r2]; exact ⟨_, h1, h2⟩
    · cases h with
      | linked qs hq =>
        injection hJ with e _
        obtain ⟨rs, r1, r2, r3, r4⟩ := go qs e.symm hq
        have h1 := RonMeans.linked (tr := tr') _ (back r3)
        have h2 := Reordered.linked _ (both r4)
        simp only [List.map_map, Function.comp_def] at h1 h2
        rw [← r1, ← r2]; exact ⟨_, h1, h2⟩
  | @array t tr tr' ps _ ih =>
    intro v h
    have go : ∀ qs : List (RTree × Val), qs.map (·.1) = ps.map (·.1) → (∀ q ∈ qs, RonMeans env fl t q.1 q.2) →
        ∃ rs : List (RTree × Val × Val), rs.map (·.1) = ps.map (·.2) ∧ rs.map (·.2.1) = qs.map (·.2) ∧
          (∀ r ∈ rs, RonMeans env fl t r.1 r.2.2) ∧ ∀ r ∈ rs, Reordered env t r.2.1 r.2.2 :=
      fun qs e hq => carryP (S := fun J v => RonMeans env fl t J v) ps qs e ih hq
    have back : ∀ {rs : List (RTree × Val × Val)}, (∀ r ∈ rs, RonMeans env fl t r.1 r.2.2) →
        ∀ p ∈ rs.map (fun r => (r.1, r.2.2)), RonMeans env fl t p.1 p.2 := by
      intro rs h p hp
      obtain ⟨r, hr, rfl⟩ := List.mem_map.1 hp
      exact h r hr
    have both : ∀ {rs : List (RTree × Val × Val)}, (∀ r ∈ rs, Reordered env t r.2.1 r.2.2) →
        ∀ p ∈ rs.map (fun r => r.2), Reordered env t p.1 p.2 := by
      intro rs h p hp
      obtain ⟨r, hr, rfl⟩ := List.mem_map.1 hp
      exact h r hr
    generalize hJ : RTree.tuple (ps.map (·.1)) tr = J at h
    cases h with
    | array qs hl hq =>
      injection hJ with e _
      obtain ⟨rs, r1, r2, r3, r4⟩ := go qs e.symm hq
      have hlen := congrArg List.length r1
      have h1 := RonMeans.array (tr := tr') (n := ps.length) (rs.map fun r => (r.1, r.2.2)) (by simpa using hlen) (back r3)
      have h2 := Reordered.array (n := ps.length) _ (both r4)
      simp only [List.map_map, Function.comp_def] at h1 h2
      rw [← r1, ← r2]; exact ⟨_, h1, h2⟩
  | @tuple c tr tr' ps hc _ ih =>
    intro v h
    have go : ∀ qs : List (Ty × RTree × Val), qs.map (·.1) = ps.map (·.1) → qs.map (·.2.1) = ps.map (·.2.1) →
        (∀ q ∈ qs, RonMeans env fl q.1 q.2.1 q.2.2) → ∃ (rs : List (Ty × RTree × Val)) (ts : List (Ty × Val × Val)),
        rs.map (·.1) = ps.map (·.1) ∧ ts.map (·.1) = ps.map (·.1) ∧ rs.map (·.2.1) = ps.map (·.2.2) ∧
        ts.map (·.2.1) = qs.map (·.2.2) ∧ ts.map (·.2.2) = rs.map (·.2.2) ∧
        (∀ r ∈ rs, RonMeans env fl r.1 r.2.1 r.2.2) ∧ ∀ r ∈ ts, Reordered env r.1 r.2.1 r.2.2 :=
      fun qs et e hq => ron_rehashT ps qs et e ih hq
    generalize hJ : RTree.tuple (ps.map (·.2.1)) tr = J at h
    rcases hc with ⟨a, b, rfl, he⟩ | ⟨a, b, d, rfl, he⟩ | ⟨a, b, d, e, rfl, he⟩ | ⟨i, trans, rfl, he⟩
    · cases h with
      | pair qs ht hq =>
        injection hJ with e _
        obtain ⟨rs, ts, r1, r2, r3, r4, r5, r6, r7⟩ := go qs (ht.trans he.symm) e.symm hq
        rw [← r3, ← r4]
        exact ⟨_, .pair rs (r1.trans he) r6, r5 ▸ .pair ts (r2.trans he) r7⟩
    · cases h with
      | triple qs ht hq =>
        injection hJ with e _
        obtain ⟨rs, ts, r1, r2, r3, r4, r5, r6, r7⟩ := go qs (ht.trans he.symm) e.symm hq
        rw [← r3, ← r4]
        exact ⟨_, .triple rs (r1.trans he) r6, r5 ▸ .triple ts (r2.trans he) r7⟩
    · cases h with
      | quad qs ht hq =>
        injection hJ with e' _
        obtain ⟨rs, ts, r1, r2, r3, r4, r5, r6, r7⟩ := go qs (ht.trans he.symm) e'.symm hq
        rw [← r3, ← r4]
        exact ⟨_, .quad rs (r1.trans he) r6, r5 ▸ .quad ts (r2.trans he) r7⟩
    · cases h with
      | struct _ h => cases hJ
      | tupleStruct qs h hq =>
        rw [he] at h; injection h with h; injection h with h ht
        injection hJ with e _
        obtain ⟨rs, ts, r1, r2, r3, r4, r5, r6, r7⟩ := go qs h.symm e.symm hq
        rw [← r3, ← r4]
        exact ⟨_, .tupleStruct rs (by rw [r1]; exact he) r6, r5 ▸ .tuple ts (by rw [r2]; exact he) r7⟩
      | variant h => cases hJ
      | tupleVariant _ h => cases hJ
      | structVariant _ h => cases hJ
  | @struct i fs cd nul tr tr' ps he _ ih =>
    intro v h
    generalize hJ : RTree.fields (ps.map fun p => (p.1, p.2.1)) tr = K at h
    cases h with
    | struct ps0 h hg hm =>
      rw [he] at h; cases h
      injection hJ with e _
      obtain ⟨qs, ts, q1, q2, q3, q4, q5, q6, q7⟩ := ron_members_rehashed ih e.symm hg hm
      rw [← q1, ← q3]
      exact ⟨_, .struct qs he q4 q5, .struct ts (by rw [q2]; exact he) q6 q7⟩
    | tupleStruct qs h hq => cases hJ
    | variant h => cases hJ
    | tupleVariant _ h => cases hJ
    | structVariant _ h => cases hJ
  | @structVariant i j vars fs w tr tr' var ps he hv hs _ ih =>
    intro v h
    generalize hJ : RTree.ctor w (.fields (ps.map fun p => (p.1, p.2.1)) tr) = K at h
    cases h with
    | struct ps0 h => cases hJ
    | tupleStruct qs h hq => cases hJ
    | variant h => cases hJ
    | tupleVariant _ h => injection hJ with _ e; cases e
    | structVariant ps0 h hv' hs' hg hm =>
      rw [he] at h; cases h
      injection hJ with en e
      subst en
      injection e with e _
      obtain ⟨rfl, rfl⟩ := hv.same hv'
      rw [hs] at hs'; cases hs'
      obtain ⟨qs, ts, q1, q2, q3, q4, q5, q6, q7⟩ := ron_members_rehashed ih e.symm hg hm
      rw [← q1, ← q3]
      refine ⟨_, .structVariant qs he hv hs q4 q5, ?_⟩
      obtain ⟨nm, rn, sh⟩ := var
      have hs : sh = .named fs := hs
      subst hs
      exact .structVariant ts he (by rw [q2]; exact hv.1) q6 q7
  | @tupleVariant i j vars w tr tr' var ps he hv hs _ ih =>
    intro v h
    generalize hJ : RTree.ctor w (.tuple (ps.map (·.2.1)) tr) = K at h
    cases h with
    | struct ps0 h => cases hJ
    | tupleStruct qs h hq => cases hJ
    | variant h => cases hJ
    | structVariant _ h => injection hJ with _ e; cases e
    | tupleVariant qs h hv' hs' hq =>
      rw [he] at h; cases h
      injection hJ with en e
      subst en
      injection e with e _
      obtain ⟨rfl, rfl⟩ := hv.same hv'
      rw [hs] at hs'
      injection hs' with hs'
      obtain ⟨rs, ts, r1, r2, r3, r4, r5, r6, r7⟩ := ron_rehashT ps qs hs'.symm e.symm ih hq
      rw [← r3, ← r4]
      refine ⟨_, .tupleVariant rs he hv (by rw [r1]; exact hs) r6, ?_⟩
      obtain ⟨nm, rn, sh⟩ := var
      have hs : sh = .tuple (ps.map (·.1)) := hs
      subst hs
      exact r5 ▸ .tupleVariant ts he (by rw [r2]; exact hv.1) r7

end NS
