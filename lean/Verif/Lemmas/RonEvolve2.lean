import Verif.Lemmas.RonEvolve
/-! What the old program writes in RON, the new one reads (for C90): all types. -/
namespace NS
variable {env env' : Env} {fl : FloatOps} {R : Nat → Nat → Prop}

theorem RonList.unique {t a b : Ty} (h : RonList t a) (h' : RonList t b) : a = b := by
  cases h <;> cases h' <;> rfl

theorem means_listOf {u b : Ty} (hu : ListOf u b) {tr : Bool} (ps : List (RTree × Val))
    (h : ∀ p ∈ ps, RonMeans env fl b p.1 p.2) : RonMeans env fl u (.list (ps.map (·.1)) tr) (.seq (ps.map (·.2))) := by
  cases hu
  · exact .vec ps h
  · exact .linked ps h

theorem holdsTys_replicate {P : Ty → Val → Prop} {t : Ty} {vs : List Val}
    (h : HoldsAll env P Field.absentValue false t vs) : HoldsTys env P Field.absentValue false (List.replicate vs.length t) vs := by
  induction vs with
  | nil => simp [HoldsTys]
  | cons v vs ih =>
    simp only [HoldsAll] at h
    simp only [List.length_cons, List.replicate_succ, HoldsTys]
    exact ⟨h.1, ih h.2⟩

/-- The only values of these types that are written as `None`. -/
theorem RonList.noNone {t a : Ty} (h : RonList t a) {v : Val} : ¬ NoneForm env t v := by
  intro hn; cases h <;> cases hn

theorem Parens.noNone {t : Ty} {ts : List Ty} {c : List Val → Val} (h : Parens env t ts c) {v : Val} : ¬ NoneForm env t v := by
  intro hn
  cases h with
  | tuple h =>
    cases hn with
    | variant a => rw [h] at a; cases a
  | _ => cases hn

theorem rmig (hk : LawfulKeys env) (hfl : FloatLaws fl) (hE : RonEnvOk env)
    (hN : ∀ (i : Nat) vars, env.defs[i]? = some (.enum vars) → ∀ v ∈ vars, v.shape ≠ .unit → v.name ≠ ['N', 'o', 'n', 'e'])
    (hEx : Extends env env') (hk' : LawfulKeys env') (hEv : REvolution env env' R) (v : Val) :
    ∀ t, HasTy env t v → RonExact env t v → RMig env env' fl R t v := by
  induction v using Val.sizeInd with
  | h v ih =>
  intro t hT hX
  have hH := Holds.head hX
  have mk : ∀ x, RSpells fl x (serRon env fl t v) → RonMeans env fl t x v → NoneOk env t v x →
      (∀ u, RCore env env' R t u → ∃ w, RonMeans env' fl u x w ∧ RMigrates env env' t u v w) → RMig env env' fl R t v := by
    intro x h1 h2 h3 h4
    exact ⟨x, h1, rmigAt_of hEx h2 h3 h4⟩
  have j1 : ∀ txts, ListText false txts (joinSep [','] txts) := fun _ => .inl ⟨rfl, .inl rfl⟩
  have j2 : ∀ txts, ListText false txts (joinSep [',', ' '] txts) := fun _ => .inl ⟨rfl, .inr rfl⟩
  have jc : ∀ txts, ListText true txts (commaEach txts) := fun _ => .inr ⟨rfl, rfl⟩
  have none_word : RWord noneText := rword_const ⟨_, _, rfl, by decide, by decide⟩
  have hseqlt : ∀ vs : List Val, v = .seq vs → ∀ w ∈ vs, sizeOf w < sizeOf v := by
    intro vs e w hw; subst e; have := Val.sizeOf_mem hw; simp; omega
  have htys : ∀ (ts : List Ty) (vs : List Val), (∀ w ∈ vs, sizeOf w < sizeOf v) → TysTy env ts vs →
      HoldsTys env (RonNodeOk env) Field.absentValue false ts vs → ∀ p ∈ ts.zip vs, RMig env env' fl R p.1 p.2 := by
    intro ts vs hs h1 h2 p hp
    have := tys_of_zip h1 h2 p hp
    exact ih p.2 (hs _ (List.of_mem_zip hp).2) p.1 this.1 this.2
  -- values of which nothing but the type itself is made
  have hleaf : ¬ NoneForm env t v → (∀ u, ¬ RCore env env' R t u) → RMig env env' fl R t v := by
    intro hn hc
    obtain ⟨x, h1, h2, h3⟩ := rround hk hfl hE v t hT (hX.text hfl hE)
    exact mk x h1 h3 (.inr ⟨h2.resolve_right fun h => hn (noneForm_of_text hfl hE v t h), hn⟩) fun u hu => absurd hu (hc u)
  -- lists of items
  have hlist : ∀ (a : Ty) (vs : List Val) (tr : Bool) (body : List Char), v = .seq vs → RonList t a → AllTy env a vs →
      HoldsAll env (RonNodeOk env) Field.absentValue false a vs → ListText tr (serRonAll env fl a vs) body →
      serRon env fl t v = '[' :: (body ++ [']']) →
      (∀ ps : List (RTree × Val), ps.map (·.2) = vs → (∀ p ∈ ps, RonMeans env fl a p.1 p.2) →
        RonMeans env fl t (.list (ps.map (·.1)) tr) v) → RMig env env' fl R t v := by
    intro a vs tr body e hl h1 h2 hb hser hself
    obtain ⟨qs, q1, q2, q3, q4⟩ := rmig_items (env' := env') (fl := fl) (R := R) vs fun w hw =>
      ih w (hseqlt vs e w hw) a (AllTy_iff.1 h1 w hw) (HoldsAll_iff.1 h2 w hw)
    refine mk (.list (qs.map (·.2)) tr) (by rw [hser]; exact .list hb q2 q3) ?_ (.inr ⟨trivial, hl.noNone⟩) fun u hu => ?_
    · have := hself (qs.map fun q => (q.2, q.1)) (by rw [← q1]; simp) (by
        intro p hp
        obtain ⟨q, hq, rfl⟩ := List.mem_map.1 hp
        exact (q4 q hq).1)
      simpa [List.map_map, Function.comp_def] using this
    · have key : ∃ b, ListOf u b ∧ RTyEvo env env' R a b := by
        cases hu with
        | list x y z => have := hl.unique x; subst this; exact ⟨_, y, z⟩
        | parens ps x => cases hl <;> cases x
        | _ => cases hl
      obtain ⟨b, hb, hab⟩ := key
      obtain ⟨rs, r1, r2⟩ := rmig_choose hab qs q4
      refine ⟨.seq (rs.map (·.2.2)), ?_, ?_⟩
      · have := means_listOf (env := env') (fl := fl) hb (tr := tr) (rs.map fun r => (r.2.1, r.2.2)) (by
          intro p hp
          obtain ⟨r, hr, rfl⟩ := List.mem_map.1 hp
          exact (r2 r hr).1)
        rw [← r1]
        simpa [List.map_map, Function.comp_def] using this
      · have := RMigrates.list (env := env) (env' := env') (rs.map fun r => (r.1, r.2.2)) hl hb (by
          intro p hp
          obtain ⟨r, hr, rfl⟩ := List.mem_map.1 hp
          exact (r2 r hr).2)
        rw [e, ← q1, ← r1]
        simpa [List.map_map, Function.comp_def] using this
  -- parentheses
  have hpar : ∀ (ts : List Ty) (vs : List Val) (c : List Val → Val) (body : List Char), v = c vs → Parens env t ts c →
      (∀ w ∈ vs, sizeOf w < sizeOf v) → TysTy env ts vs → HoldsTys env (RonNodeOk env) Field.absentValue false ts vs →
      ListText false (serRonTys env fl ts vs) body → serRon env fl t v = '(' :: (body ++ [')']) → RMig env env' fl R t v := by
    intro ts vs c body e hp hlt h1 h2 hb hser
    obtain ⟨qs, q1, q1', q2, q3, q4⟩ := rmig_tys (env' := env') (fl := fl) (R := R) ts vs h1 (htys ts vs hlt h1 h2)
    refine mk (.tuple (qs.map (·.2.2)) false) (by rw [hser]; exact .tuple hb q2 q3) ?_ (.inr ⟨trivial, hp.noNone⟩) fun u hu => ?_
    · have := means_parens (fl := fl) hp (tr := false) (qs.map fun q => (q.1, q.2.2, q.2.1)) (by rw [← q1]; simp) (by
        intro p hp
        obtain ⟨q, hq, rfl⟩ := List.mem_map.1 hp
        exact (q4 q hq).1)
      rw [e, ← q1']
      simpa [List.map_map, Function.comp_def] using this
    · have key : ∃ (ps : List (Ty × Ty)) (c' : List Val → Val), ps.map (·.1) = ts ∧ Parens env' u (ps.map (·.2)) c' ∧
          ∀ p ∈ ps, RTyEvo env env' R p.1 p.2 := by
        cases hu with
        | parens ps x y z => exact ⟨ps, _, (x.unique hp).1, y, z⟩
        | @named _ j hR =>
          obtain ⟨d, e, hd, he, hde⟩ := hEv _ j hR
          cases hp with
          | tuple a =>
            rw [hd] at a
            injection a with a
            subst a
            generalize hD : Def.tuple ts _ = D at hde
            cases hde with
            | struct => cases hD
            | enum => cases hD
            | tuple ps h =>
              injection hD with hD1 hD2
              exact ⟨ps, _, hD1.symm, .tuple he, h⟩
        | list x => cases hp <;> cases x
        | _ => cases hp
      obtain ⟨ps, c', p1, p2, p3⟩ := key
      obtain ⟨rs, r1, r2, r3⟩ := rmig_chooseTys ps p3 qs (by rw [q1, p1]) q4
      refine ⟨c' (rs.map (·.2.2.2)), ?_, ?_⟩
      · have := means_parens (fl := fl) p2 (tr := false) (rs.map fun r => (r.1.2, r.2.2.1, r.2.2.2)) (by
          rw [← r1]; simp [List.map_map, Function.comp_def]) (by
          intro p hp
          obtain ⟨r, hr, rfl⟩ := List.mem_map.1 hp
          exact (r3 r hr).1)
        rw [← r2]
        simpa [List.map_map, Function.comp_def] using this
      · have := RMigrates.parens (env := env) (env' := env') (t := t) (u := u) (c := c) (c' := c') (rs.map fun r => (r.1, (r.2.1, r.2.2.2)))
          (by have h' := hp; rw [← p1, ← r1] at h'; simpa [List.map_map, Function.comp_def] using h')
          (by have h' := p2; rw [← r1] at h'; simpa [List.map_map, Function.comp_def] using h')
          (by
            intro p hp
            obtain ⟨r, hr, rfl⟩ := List.mem_map.1 hp
            exact (r3 r hr).2)
        rw [e, ← q1', ← r2]
        simpa [List.map_map, Function.comp_def] using this
  -- maps
  have hmaps : ∀ (k t' : Ty) (vs : List Val), v = .seq vs → EntriesTy env k t' vs →
      HoldsEntries env (RonNodeOk env) Field.absentValue false k t' vs → vs.Pairwise (fun a b => a.key ≠ b.key) →
      serRon env fl t v = '{' :: (commaEach (serRonEntries env fl k t' vs) ++ ['}']) → ¬ NoneForm env t v →
      (∀ ps : List ((RTree × Val) × (RTree × Val)), (ps.map fun p => Val.entry p.1.2 p.2.2) = vs →
        (∀ p ∈ ps, RonMeans env fl k p.1.1 p.1.2) → (∀ p ∈ ps, RonMeans env fl t' p.2.1 p.2.2) →
        RonMeans env fl t (.map (ps.map fun p => (p.1.1, p.2.1)) true) v) →
      (∀ u, RCore env env' R t u → ∃ b, RTyEvo env env' R t' b ∧
        ∀ rs : List ((Val × RTree) × (Val × RTree × Val)), (rs.map fun r => Val.entry r.1.1 r.2.1) = vs →
          (rs.map fun r => Val.entry r.1.1 r.2.2.2).Pairwise (fun a b => a.key ≠ b.key) →
          (∀ r ∈ rs, RonMeans env' fl k r.1.2 r.1.1 ∧ RonMeans env' fl b r.2.2.1 r.2.2.2 ∧ RMigrates env env' t' b r.2.1 r.2.2.2) →
          ∃ w, RonMeans env' fl u (.map (rs.map fun r => (r.1.2, r.2.2.1)) true) w ∧ RMigrates env env' t u v w) →
      RMig env env' fl R t v := by
    intro k t' vs e hT' hH' hd hser hnn hself hc
    have hr : ∀ w ∈ vs, ∃ a b, w = .entry a b ∧ RMig env env' fl R k a ∧ RMig env env' fl R t' b := by
      have hlt := hseqlt vs e
      clear hser e hc hd hself
      induction vs with
      | nil => simp
      | cons w ws ihw =>
        cases w with
        | entry a b =>
          simp only [EntriesTy] at hT'
          simp only [HoldsEntries] at hH'
          intro w hw
          rcases List.mem_cons.1 hw with rfl | hw
          · have := hlt (.entry a b) (by simp)
            simp only [Val.entry.sizeOf_spec] at this
            exact ⟨a, b, rfl, ih a (by omega) _ hT'.1 hH'.1, ih b (by omega) _ hT'.2.1 hH'.2.1⟩
          · exact ihw hT'.2.2 hH'.2.2 (fun w hw => hlt w (by simp [hw])) w hw
        | _ => simp [EntriesTy] at hT'
    obtain ⟨qs, q1, q2, q3, q4⟩ := rmig_entries vs hr
    refine mk (.map (qs.map fun q => (q.1.2, q.2.2)) true) (by rw [hser]; exact .map (jc _) q2 q3) ?_ (.inr ⟨trivial, hnn⟩) fun u hu => ?_
    · have := hself (qs.map fun q => ((q.1.2, q.1.1), (q.2.2, q.2.1))) (by rw [← q1]; simp [List.map_map, Function.comp_def])
        (by intro p hp; obtain ⟨q, hq, rfl⟩ := List.mem_map.1 hp; exact (q4 q hq).1.1)
        (by intro p hp; obtain ⟨q, hq, rfl⟩ := List.mem_map.1 hp; exact (q4 q hq).2.1)
      simpa [List.map_map, Function.comp_def] using this
    obtain ⟨b, hb, hfin⟩ := hc u hu
    obtain ⟨rs, r1, r2⟩ := exists_preimage (g := fun r : (Val × RTree) × (Val × RTree × Val) => (r.1, (r.2.1, r.2.2.1)))
      (Q := fun r => RonMeans env' fl k r.1.2 r.1.1 ∧ RonMeans env' fl b r.2.2.1 r.2.2.2 ∧ RMigrates env env' t' b r.2.1 r.2.2.2) qs
      (by
        intro q hq
        obtain ⟨w, w1, w2⟩ := (q4 q hq).2.2.2 b hb
        exact ⟨(q.1, (q.2.1, q.2.2, w)), rfl, (q4 q hq).1.1.extend hEx, w1, w2⟩)
    have := hfin rs (by rw [← q1, ← r1]; simp [List.map_map, Function.comp_def]) (by
      rw [← q1, ← r1] at hd
      simp only [List.map_map, List.pairwise_map, Function.comp_def, Val.key] at hd ⊢
      exact hd) r2
    rw [← r1]
    simpa [List.map_map, Function.comp_def] using this
  cases t with
  | unit =>
    cases v <;> simp [HasTy] at hT
    exact hpar [] [] (fun _ => .unit) [] rfl .unit (by simp) (by simp [TysTy]) (by simp [HoldsTys]) (j1 []) (by rw [serRon]; rfl)
  | bool =>
    refine hleaf (fun h => by cases h) fun u hu => ?_
    cases hu with
    | list h => cases h
    | parens _ h => cases h
  | int k =>
    cases v <;> simp [HasTy] at hT
    rename_i i
    have hkt := hH.1 k rfl
    have hb := inRange_text hkt hT
    have hint : ∀ {e : Env} {l : IntKind}, l.textual = true → l.inRange i → RonMeans e fl (.int l) (.num (intNum i)) (.int i) := by
      intro e l hl hr
      refine .int hl (intNum_val i) hr fun hs => ?_
      have h0 : ¬ i < 0 := by have := hr.1; simp [IntKind.lo, hs] at this; omega
      exact ⟨i.toNat, by simp [intNum, h0]⟩
    refine mk (.num (intNum i)) (by rw [serRon]; exact .num (showInt_lit hb.1 hb.2)) (hint hkt hT)
      (.inr ⟨trivial, fun h => by cases h⟩) fun u hu => ?_
    cases hu with
    | list h => cases h
    | parens _ h => cases h
    | @widen _ l a b c => exact ⟨.int i, hint b (c i hT), .widen⟩
  | f32 =>
    refine hleaf (fun h => by cases h) fun u hu => ?_
    cases hu with
    | list h => cases h
    | parens _ h => cases h
  | f64 =>
    refine hleaf (fun h => by cases h) fun u hu => ?_
    cases hu with
    | list h => cases h
    | parens _ h => cases h
  | str =>
    refine hleaf (fun h => by cases h) fun u hu => ?_
    cases hu with
    | list h => cases h
    | parens _ h => cases h
  | dur =>
    refine hleaf (fun h => by cases h) fun u hu => ?_
    cases hu with
    | list h => cases h
    | parens _ h => cases h
  | time =>
    refine hleaf (fun h => ?_) fun u hu => ?_
    · cases h with
      | past h => have := hH.2.2.2.1 _ _ rfl; omega
    · cases hu with
      | list h => cases h
      | parens _ h => cases h
  | option t =>
    cases v <;> simp only [HasTy] at hT
    · refine mk (.word noneText) (by rw [serRon]; exact .word none_word) .none (.inl ⟨rfl, .none⟩) fun u hu => ?_
      cases hu with
      | list h => cases h
      | parens _ h => cases h
      | option h => exact ⟨.none, .none, .none⟩
    · rename_i w
      simp only [RonExact, Holds] at hX
      obtain ⟨x, h1, h2⟩ := ih w (by simp) t hT hX.2
      have hnf := hH.2.2.2.2.1 t w rfl rfl
      have hx : NotNone x := by
        rcases h2.2.1 with ⟨_, h⟩ | ⟨h, _⟩
        · exact absurd h hnf
        · exact h
      refine mk x (by rw [serRon]; exact h1) (.some hx h2.1) (.inr ⟨hx, fun h => ?_⟩) fun u hu => ?_
      · cases h with | some h => exact hnf h
      · cases hu with
        | list h => cases h
        | parens _ h => cases h
        | option h =>
          obtain ⟨y, y1, y2⟩ := h2.2.2 _ h
          exact ⟨.some y, .some hx y1, .some y2⟩
  | vec t =>
    cases v <;> simp only [HasTy] at hT
    simp only [RonExact, Holds] at hX
    exact hlist t _ true _ rfl .vec hT.1 hX.2 (jc _) (by rw [serRon]) fun ps h1 h2 => h1 ▸ .vec ps h2
  | linked t =>
    cases v <;> simp only [HasTy] at hT
    simp only [RonExact, Holds] at hX
    exact hlist t _ false _ rfl .linked hT.1 hX.2 (j1 _) (by rw [serRon]) fun ps h1 h2 => h1 ▸ .linked ps h2
  | hset t =>
    cases v <;> simp only [HasTy] at hT
    simp only [RonExact, Holds] at hX
    refine hlist t _ false _ rfl .hset hT.1 hX.2 (j1 _) (by rw [serRon]) fun ps h1 h2 => ?_
    have := RonMeans.hset (env := env) (fl := fl) (tr := false) ps h2
    rwa [h1, firsts_id hT.2.2.2] at this
  | bset t =>
    cases v <;> simp only [HasTy] at hT
    simp only [RonExact, Holds] at hX
    refine hlist t _ false _ rfl .bset hT.1 hX.2 (j1 _) (by rw [serRon]) fun ps h1 h2 => ?_
    exact .bset (tr := false) ps h2 ⟨hT.2.2, fun x => by rw [h1]⟩
  | array t len =>
    cases v <;> simp only [HasTy] at hT
    rename_i vs
    simp only [RonExact, Holds] at hX
    obtain ⟨hA, rfl⟩ := hT
    exact hpar (List.replicate vs.length t) vs .seq _ rfl .array (hseqlt _ rfl) (replicate_tys hA) (holdsTys_replicate hX.2) (j1 _)
      (by rw [serRon, serRonTys_replicate])
  | pair a b =>
    cases v <;> simp only [HasTy] at hT
    simp only [RonExact, Holds] at hX
    exact hpar _ _ .seq _ rfl .pair (hseqlt _ rfl) hT hX.2 (j1 _) (by rw [serRon])
  | triple a b c =>
    cases v <;> simp only [HasTy] at hT
    simp only [RonExact, Holds] at hX
    exact hpar _ _ .seq _ rfl .triple (hseqlt _ rfl) hT hX.2 (j1 _) (by rw [serRon])
  | quad a b c d =>
    cases v <;> simp only [HasTy] at hT
    simp only [RonExact, Holds] at hX
    exact hpar _ _ .seq _ rfl .quad (hseqlt _ rfl) hT hX.2 (j1 _) (by rw [serRon])
  | hmap k t =>
    cases v <;> simp only [HasTy] at hT
    simp only [RonExact, Holds] at hX
    refine hmaps k t _ rfl hT.1 hX.2 hT.2.2.2 (by rw [serRon]) (by intro h; cases h) (fun ps h1 h2 h2' => ?_) fun u hu => ?_
    · refine .hmap (tr := true) ps h2 h2' (by rw [h1]; exact lastWins_self hT.1.allEntries hT.2.2.2) ?_
      rw [← firsts_id (vs := List.map Val.key _) (by rw [List.pairwise_map]; exact hT.2.2.2), ← h1, List.map_map]
      rfl
    cases hu with
    | list h => cases h
    | parens _ h => cases h
    | @hmap _ _ b hb =>
      refine ⟨b, hb, fun rs e hd hr => ⟨.seq (rs.map fun r => Val.entry r.1.1 r.2.2.2), ?_, ?_⟩⟩
      · have hA : AllEntries (rs.map fun r => Val.entry r.1.1 r.2.2.2) := allEntries_map rs (fun r => r.1.1) (fun r => r.2.2.2)
        have hl := lastWins_keys hk' hA hd
        have := RonMeans.hmap (env := env') (fl := fl) (k := k) (t := b) (tr := true)
          (rs.map fun r => ((r.1.2, r.1.1), (r.2.2.1, r.2.2.2))) (r := rs.map fun r => Val.entry r.1.1 r.2.2.2)
          (by intro p hp; obtain ⟨r, hr', rfl⟩ := List.mem_map.1 hp; exact (hr r hr').1)
          (by intro p hp; obtain ⟨r, hr', rfl⟩ := List.mem_map.1 hp; exact (hr r hr').2.1)
          (by simpa [List.map_map, Function.comp_def] using hl.1)
          (by simpa [List.map_map, Function.comp_def, Val.key] using hl.2)
        simpa [List.map_map, Function.comp_def] using this
      · rw [← e]
        have := RMigrates.hmap (env := env) (env' := env') (k := k) (rs.map fun r => (r.1.1, r.2.1, r.2.2.2))
          (by intro p hp; obtain ⟨r, hr', rfl⟩ := List.mem_map.1 hp; exact (hr r hr').2.2)
        simpa [List.map_map, Function.comp_def] using this
  | bmap k t =>
    cases v <;> simp only [HasTy] at hT
    simp only [RonExact, Holds] at hX
    have hne : ∀ {vs : List Val}, vs.Pairwise (fun a b => env.cmp a.key b.key = .lt) → vs.Pairwise (fun a b => a.key ≠ b.key) :=
      fun h => h.imp fun h e => by rw [e, (hk.eq_iff _ _).2 rfl] at h; cases h
    refine hmaps k t _ rfl hT.1 hX.2 (hne hT.2.2) (by rw [serRon]) (by intro h; cases h) (fun ps h1 h2 h2' => ?_) fun u hu => ?_
    · exact .bmap (tr := true) ps h2 h2' (by rw [h1]; exact lastWins_self hT.1.allEntries (hne hT.2.2)) hT.2.2
    cases hu with
    | list h => cases h
    | parens _ h => cases h
    | @bmap _ _ b hb =>
      refine ⟨b, hb, fun rs e hd hr => ⟨.seq (rs.map fun r => Val.entry r.1.1 r.2.2.2), ?_, ?_⟩⟩
      · have hA : AllEntries (rs.map fun r => Val.entry r.1.1 r.2.2.2) := allEntries_map rs (fun r => r.1.1) (fun r => r.2.2.2)
        have hl := lastWins_keys hk' hA hd
        have := RonMeans.bmap (env := env') (fl := fl) (k := k) (t := b) (tr := true)
          (rs.map fun r => ((r.1.2, r.1.1), (r.2.2.1, r.2.2.2))) (r := rs.map fun r => Val.entry r.1.1 r.2.2.2)
          (by intro p hp; obtain ⟨r, hr', rfl⟩ := List.mem_map.1 hp; exact (hr r hr').1)
          (by intro p hp; obtain ⟨r, hr', rfl⟩ := List.mem_map.1 hp; exact (hr r hr').2.1)
          (by simpa [List.map_map, Function.comp_def] using hl.1)
          (by
            have := hT.2.2
            rw [← e] at this
            rw [hEx.cmp]
            simp only [List.pairwise_map, Val.key] at this ⊢
            exact this)
        simpa [List.map_map, Function.comp_def] using this
      · rw [← e]
        have := RMigrates.bmap (env := env) (env' := env') (k := k) (rs.map fun r => (r.1.1, r.2.1, r.2.2.2))
          (by intro p hp; obtain ⟨r, hr', rfl⟩ := List.mem_map.1 hp; exact (hr r hr').2.2)
        simpa [List.map_map, Function.comp_def] using this
  | box t =>
    cases v <;> simp only [HasTy] at hT
    rename_i w
    simp only [RonExact, Holds] at hX
    obtain ⟨x, h1, h2⟩ := ih w (by simp) t hT hX.2
    refine mk x (by rw [serRon]; exact h1) (.box h2.1) ?_ fun u hu => ?_
    · rcases h2.2.1 with ⟨a, b⟩ | ⟨a, b⟩
      · exact .inl ⟨a, .box b⟩
      · exact .inr ⟨a, fun h => by cases h with | box h => exact b h⟩
    · cases hu with
      | list h => cases h
      | parens _ h => cases h
      | unboxed h =>
        obtain ⟨y, y1, y2⟩ := h2.2.2 _ h
        exact ⟨y, y1, .unboxed y2⟩
  | proxied i => exact absurd rfl (hH.2.2.2.2.2 i)
  | named i =>
    cases v <;> simp only [HasTy] at hT
    · rename_i vs
      have hlt : ∀ w ∈ vs, sizeOf w < sizeOf (Val.struct vs) := by
        intro w hw; have := Val.sizeOf_mem hw; simp; omega
      simp only [RonExact, Holds] at hX
      cases hdf : env.defs[i]? with
      | none => rw [hdf] at hT; exact absurd hT id
      | some d =>
        rw [hdf] at hT hX
        have hdo := hE i d hdf
        cases d with
        | enum vars => exact absurd hT id
        | struct fs cd nul =>
          simp only at hT hX
          obtain ⟨o1, o2, o3⟩ := hdo
          obtain ⟨qs, q1, q2, q3⟩ := rmig_fields (env' := env') (fl := fl) (R := R) fs vs hT hX.2
            (fun f w hm hx => ih w (hlt w (List.of_mem_zip hm).2) f.ty (fieldsTy_zip hT hm) hx) o1
          have hl := fieldsTy_length_ev hT
          obtain ⟨ps, p1, p2, p3⟩ := rself_members (env := env) (fl := fl) (cd := cd) o2 o1 hl o3 (fun f v hm hs => holds_skipped hX.2 hm hs)
            (fun _ _ _ h => h.1) q3
          have e : serRon env fl (.named i) (.struct vs) =
            '(' :: (commaEach (serRonFields env fl true fs vs) ++ [')']) := by rw [serRon, hdf]
          refine mk (.fields qs true) (by rw [e]; exact .fields (jc _) q1 q2) (by rw [← p1]; exact .struct ps hdf p2 p3)
            (.inr ⟨trivial, fun h => by cases h⟩) fun u hu => ?_
          cases hu with
          | list h => cases h
          | parens _ h =>
            cases h with
            | tuple h => rw [hdf] at h; cases h
          | @named _ j hR =>
            obtain ⟨d, e, hd, he, hde⟩ := hEv i j hR
            rw [hdf] at hd
            injection hd with hd
            subst hd
            cases hde with
            | @struct _ gs _ cd' _ nul' hv =>
              obtain ⟨ps, ws, p1, p2, p3, p4⟩ := rmig_members (env' := env') (fl := fl) (cd := cd')
                (M := fun f g v w => RMigrates env env' f.ty g.ty v w) o2 o1 hl hv.distinct
                (fun f hf hs => by
                  obtain ⟨g, g1, g2, g3, g4⟩ := hv.kept f hf hs
                  exact ⟨g, g1, g2, g3, fun v x h => h.2.2 _ g4⟩) hv.added q3
              refine ⟨.struct ws, ?_, .struct _ hdf he p4 fun _ _ _ _ h => h⟩
              rw [← p1]
              exact .struct ps he p2 p3
        | tuple ts tr =>
          simp only at hT hX
          exact hpar ts vs .struct _ rfl (.tuple hdf) hlt hT hX.2 (j2 _) (by rw [serRon, hdf])
    · rename_i j vs
      have hlt : ∀ w ∈ vs, sizeOf w < sizeOf (Val.variant j vs) := by
        intro w hw; have := Val.sizeOf_mem hw; simp; omega
      simp only [RonExact, Holds] at hX
      cases hdf : env.defs[i]? with
      | none => rw [hdf] at hT; exact absurd hT id
      | some d =>
        rw [hdf] at hT hX
        have hdo := hE i d hdf
        cases d with
        | struct fs cd nul => exact absurd hT id
        | tuple ts tr => exact absurd hT id
        | enum vars =>
          simp only at hT hX
          obtain ⟨o1, o2, o3⟩ := hdo
          cases hj : vars[j]? with
          | none => rw [hj] at hT; exact absurd hT id
          | some var =>
            rw [hj] at hT hX
            have hmem : var ∈ vars := List.mem_of_getElem? hj
            have hnm := o1 _ hmem
            have hcalled : ∀ {vars : List Variant} {n : Nat} {var : Variant}, vars.Pairwise (fun v w => v.name ≠ w.name) →
                vars[n]? = some var → NotBool var.name → VariantCalled vars var.name n var := by
              intro vars n var hp hn hb
              obtain ⟨hjl, hje⟩ := List.getElem?_eq_some_iff.1 hn
              refine ⟨hn, rfl, hb, fun i' hi' u hu => ?_⟩
              obtain ⟨hil, hie⟩ := List.getElem?_eq_some_iff.1 hu
              have := List.pairwise_iff_getElem.1 hp i' n hil hjl hi'
              rw [hie, hje] at this
              exact this
            have hcall := hcalled o2 hj hnm.2
            have hnew : ∀ u, RCore env env' R (.named i) u → ∃ (j' : Nat) (vars' : List Variant) (n : Nat) (vr' : Variant), u = .named j' ∧
                env'.defs[j']? = some (.enum vars') ∧ vars'[n]? = some vr' ∧ vr'.name = var.name ∧
                VariantCalled vars' var.name n vr' ∧ RShapeEvo env env' R var.shape vr'.shape := by
              intro u hu
              cases hu with
              | list h => cases h
              | parens _ h =>
                cases h with
                | tuple h => rw [hdf] at h; cases h
              | @named _ j' hR =>
                obtain ⟨d, e, hd, he, hde⟩ := hEv i j' hR
                rw [hdf] at hd
                injection hd with hd
                subst hd
                cases hde with
                | @enum _ vars' hpw hv =>
                  obtain ⟨vr', m1, m2, m3⟩ := hv var hmem
                  obtain ⟨n, hn, e'⟩ := List.mem_iff_getElem.1 m1
                  have hn' : vars'[n]? = some vr' := by rw [List.getElem?_eq_getElem hn, e']
                  exact ⟨j', vars', n, vr', rfl, he, hn', m2, m2 ▸ hcalled hpw hn' (m2 ▸ hnm.2), m3⟩
            have hnf : NoneForm env (.named i) (.variant j vs) → var.name = noneText := by
              intro h
              cases h with
              | variant a b c =>
                rw [hdf] at a
                injection a with a; injection a with a
                subst a
                rw [hj] at b
                injection b with b
                subst b
                exact c
            have hctor : var.shape ≠ .unit → ∀ y, NoneOk env (.named i) (.variant j vs) (.ctor var.name y) := by
              intro hs y
              have := hN i vars hdf var hmem hs
              exact .inr ⟨this, fun h => this (hnf h)⟩
            obtain ⟨nm, rn, sh⟩ := var
            cases sh with
            | unit =>
              simp only at hT
              have hvs : vs = [] := by
                cases vs with
                | nil => rfl
                | cons => simp at hT
              subst hvs
              have e : serRon env fl (.named i) (.variant j []) = nm := by rw [serRon, hdf]; simp only [hj]
              refine mk (.word nm) (by rw [e]; exact .word hnm.1) (.variant hdf hcall rfl) ?_ fun u hu => ?_
              · by_cases h : nm = noneText
                · exact .inl ⟨by rw [h], .variant hdf hj h⟩
                · exact .inr ⟨h, fun h' => h (hnf h')⟩
              · obtain ⟨j', vars', n, vr', rfl, u2, u3, u4, u4', u5⟩ := hnew u hu
                generalize hsh : vr'.shape = sh' at u5
                cases u5
                exact ⟨.variant n [], .variant u2 u4' hsh, .variant hdf u2 hj u3 u4.symm rfl hsh⟩
            | tuple ts =>
              simp only at hT hX
              obtain ⟨qs, q1, q1', q2, q3, q4⟩ := rmig_tys (env' := env') (fl := fl) (R := R) ts vs hT (htys ts vs hlt hT hX.2)
              have e : serRon env fl (.named i) (.variant j vs) =
                nm ++ '(' :: (joinSep [','] (serRonTys env fl ts vs) ++ [')']) := by rw [serRon, hdf]; simp only [hj]
              refine mk (.ctor nm (.tuple (qs.map (·.2.2)) false)) (by rw [e]; exact .ctor hnm.1 (.tuple (j1 _) q2 q3)) ?_
                (hctor (by simp) _) fun u hu => ?_
              · have := RonMeans.tupleVariant (env := env) (fl := fl) (tr := false) (qs.map fun q => (q.1, q.2.2, q.2.1)) hdf hcall
                  (by simp only [List.map_map, Function.comp_def]; rw [← q1])
                  (by intro p hp; obtain ⟨q, hq, rfl⟩ := List.mem_map.1 hp; exact (q4 q hq).1)
                rw [← q1']
                simpa [List.map_map, Function.comp_def] using this
              · obtain ⟨j', vars', n, vr', rfl, u2, u3, u4, u4', u5⟩ := hnew u hu
                generalize hsh : vr'.shape = sh' at u5
                generalize hts : Shape.tuple ts = S at u5
                cases u5 with
                | unit => cases hts
                | named => cases hts
                | tuple ps hps =>
                  injection hts with hts
                  obtain ⟨rs, r1, r2, r3⟩ := rmig_chooseTys ps hps qs (by rw [q1, hts]) q4
                  refine ⟨.variant n (rs.map (·.2.2.2)), ?_, ?_⟩
                  · have := RonMeans.tupleVariant (env := env') (fl := fl) (tr := false) (rs.map fun r => (r.1.2, r.2.2.1, r.2.2.2)) u2 u4'
                      (by rw [hsh, ← r1]; simp [List.map_map, Function.comp_def])
                      (by intro p hp; obtain ⟨r, hr, rfl⟩ := List.mem_map.1 hp; exact (r3 r hr).1)
                    rw [← r2]
                    simpa [List.map_map, Function.comp_def] using this
                  · have := RMigrates.tupleVariant (env := env) (env' := env') (rs.map fun r => (r.1, (r.2.1, r.2.2.2))) hdf u2 hj u3 u4.symm
                      (by rw [hts, ← r1]; simp [List.map_map, Function.comp_def])
                      (by rw [hsh, ← r1]; simp [List.map_map, Function.comp_def])
                      (by intro p hp; obtain ⟨r, hr, rfl⟩ := List.mem_map.1 hp; exact (r3 r hr).2)
                    rw [← q1', ← r2]
                    simpa [List.map_map, Function.comp_def] using this
            | named fs =>
              simp only at hT hX
              obtain ⟨⟨f1, f2, f3⟩, f4⟩ := o3 _ hmem fs rfl
              have hX2 := holdsFields_plain fs vs f4 hX.2
              obtain ⟨qs, q1, q2, q3⟩ := rmig_fields (env' := env') (fl := fl) (R := R) fs vs hT hX2
                (fun f w hm hx => ih w (hlt w (List.of_mem_zip hm).2) f.ty (fieldsTy_zip hT hm) hx) f1
              have hl := fieldsTy_length_ev hT
              obtain ⟨ps, p1, p2, p3⟩ := rself_members (env := env) (fl := fl) (cd := false) f2 f1 hl f3
                (fun f v hm hs => holds_skipped hX2 hm hs) (fun _ _ _ h => h.1) q3
              have e : serRon env fl (.named i) (.variant j vs) =
                nm ++ '(' :: (commaEach (serRonFields env fl true fs vs) ++ [')']) := by
                rw [serRon, hdf]; simp only [hj, serRonFields_plain fs vs f4]
              refine mk (.ctor nm (.fields qs true)) (by rw [e]; exact .ctor hnm.1 (.fields (jc _) q1 q2))
                (by rw [← p1]; exact .structVariant ps hdf hcall rfl p2 p3) (hctor (by simp) _) fun u hu => ?_
              obtain ⟨j', vars', n, vr', rfl, u2, u3, u4, u4', u5⟩ := hnew u hu
              generalize hsh : vr'.shape = sh' at u5
              cases u5 with
              | @named _ gs hv =>
                obtain ⟨ps, ws, p1, p2, p3, p4⟩ := rmig_members (env' := env') (fl := fl) (cd := false)
                  (M := fun f g v w => RMigrates env env' f.ty g.ty v w) f2 f1 hl hv.distinct
                  (fun f hf hs => by
                    obtain ⟨g, g1, g2, g3, g4⟩ := hv.kept f hf hs
                    exact ⟨g, g1, g2, g3, fun v x h => h.2.2 _ g4⟩) hv.added q3
                refine ⟨.variant n ws, ?_, .structVariant _ hdf u2 hj u3 u4.symm rfl hsh p4 fun _ _ _ _ h => h⟩
                rw [← p1]
                exact .structVariant ps u2 u4' hsh p2 p3

/-- What the old program writes, the new one reads as the corresponding value. -/
theorem ron_evolves (hk : LawfulKeys env) (hfl : FloatLaws fl) (hE : RonEnvOk env)
    (hN : ∀ (i : Nat) vars, env.defs[i]? = some (.enum vars) → ∀ v ∈ vars, v.shape ≠ .unit → v.name ≠ ['N', 'o', 'n', 'e'])
    (hEx : Extends env env') (hk' : LawfulKeys env') (hEv : REvolution env env' R) {t u : Ty} {v : Val}
    (hT : HasTy env t v) (hX : RonExact env t v) (hu : RTyEvo env env' R t u) :
    ∃ w, RMigrates env env' t u v w ∧ Decodes (fun n => deserializeRon env' fl n u (serRon env fl t v)) w := by
  obtain ⟨x, h1, h2⟩ := rmig hk hfl hE hN hEx hk' hEv v t hT hX
  obtain ⟨w, w1, w2⟩ := h2.2.2 u hu
  exact ⟨w, w2, ron_reads hk' h1.text w1⟩

end NS
