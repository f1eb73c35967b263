import Verif.Lemmas.RonRoundTrip
import Verif.Lemmas.JsonEvolve
import Verif.Spec.RonEvolve
/-! What the old program writes in RON, the new one reads (for C90). -/
namespace NS
variable {env env' : Env} {fl : FloatOps} {R : Nat → Nat → Prop}

/-- A RON value keeps its meaning when types are added. -/
theorem RonMeans.extend (hE : Extends env env') {t : Ty} {x : RTree} {v : Val} (h : RonMeans env fl t x v) :
    RonMeans env' fl t x v := by
  induction h with
  | unit => exact .unit
  | true => exact .true
  | false => exact .false
  | boolNum => exact .boolNum
  | int a b c d => exact .int a b c d
  | intWrap a b c d e f => exact .intWrap a b c d e f
  | f32 => exact .f32
  | f64 => exact .f64
  | str => exact .str
  | dur a b c => exact .dur a b c
  | epoch => exact .epoch
  | time a b c => exact .time a b c
  | none => exact .none
  | some a _ ih => exact .some a ih
  | vec ps _ ih => exact .vec ps ih
  | linked ps _ ih => exact .linked ps ih
  | hset ps _ ih => exact .hset ps ih
  | bset ps _ hs ih => exact .bset ps ih (by unfold SetOf at hs ⊢; rw [hE.cmp]; exact hs)
  | array ps h _ ih => exact .array ps h ih
  | pair ps h _ ih => exact .pair ps h ih
  | triple ps h _ ih => exact .triple ps h ih
  | quad ps h _ ih => exact .quad ps h ih
  | hmap ps _ _ a b ih1 ih2 => exact .hmap ps ih1 ih2 a b
  | bmap ps _ _ a b ih1 ih2 => exact .bmap ps ih1 ih2 a (by rw [hE.cmp]; exact b)
  | box _ ih => exact .box ih
  | struct ps a b _ ih => exact .struct ps (hE.defs _ _ a) b ih
  | tupleStruct ps a _ ih => exact .tupleStruct ps (hE.defs _ _ a) ih
  | variant a b c => exact .variant (hE.defs _ _ a) b c
  | tupleVariant ps a b c _ ih => exact .tupleVariant ps (hE.defs _ _ a) b c ih
  | structVariant ps a b c d _ ih => exact .structVariant ps (hE.defs _ _ a) b c d ih

/-- The tree is the word `None` exactly for values written as `None`. -/
def NoneOk (env : Env) (t : Ty) (v : Val) (x : RTree) : Prop :=
  (x = .word noneText ∧ NoneForm env t v) ∨ (NotNone x ∧ ¬ NoneForm env t v)

/-- What the new program makes of the tree `x` written for `v`. -/
def RMigAt (env env' : Env) (fl : FloatOps) (R : Nat → Nat → Prop) (t : Ty) (v : Val) (x : RTree) : Prop :=
  RonMeans env fl t x v ∧ NoneOk env t v x ∧ ∀ u, RTyEvo env env' R t u → ∃ w, RonMeans env' fl u x w ∧ RMigrates env env' t u v w

/-- A tree is written, of which the new program makes the right thing. -/
def RMig (env env' : Env) (fl : FloatOps) (R : Nat → Nat → Prop) (t : Ty) (v : Val) : Prop :=
  ∃ x, RSpells fl x (serRon env fl t v) ∧ RMigAt env env' fl R t v x

/-- The replacements that depend on the old type. -/
inductive RCore (env env' : Env) (R : Nat → Nat → Prop) : Ty → Ty → Prop where
  | named {i j} : R i j → RCore env env' R (.named i) (.named j)
  | widen {k l} : k.textual = true → l.textual = true → (∀ i, k.inRange i → l.inRange i) →
      RCore env env' R (.int k) (.int l)
  | unboxed {t u} : RTyEvo env env' R t u → RCore env env' R (.box t) u
  | list {t u a b} : RonList t a → ListOf u b → RTyEvo env env' R a b → RCore env env' R t u
  | option {t u} : RTyEvo env env' R t u → RCore env env' R (.option t) (.option u)
  | parens {t u c c'} (ps : List (Ty × Ty)) : Parens env t (ps.map (·.1)) c → Parens env' u (ps.map (·.2)) c' →
      (∀ p ∈ ps, RTyEvo env env' R p.1 p.2) → RCore env env' R t u
  | hmap {k t u} : RTyEvo env env' R t u → RCore env env' R (.hmap k t) (.hmap k u)
  | bmap {k t u} : RTyEvo env env' R t u → RCore env env' R (.bmap k t) (.bmap k u)

theorem rmigAt_of (hEx : Extends env env') {t : Ty} {v : Val} {x : RTree} (hx : RonMeans env fl t x v) (hn : NoneOk env t v x)
    (hc : ∀ u, RCore env env' R t u → ∃ w, RonMeans env' fl u x w ∧ RMigrates env env' t u v w) :
    RMigAt env env' fl R t v x := by
  refine ⟨hx, hn, fun u hu => ?_⟩
  have main : ∀ t' u, RTyEvo env env' R t' u → t' = t → ∃ w, RonMeans env' fl u x w ∧ RMigrates env env' t u v w := by
    intro t' u hu
    induction hu with
    | same => rintro rfl; exact ⟨v, hx.extend hEx, .same⟩
    | optional _ ih =>
      intro e
      rcases hn with ⟨rfl, h⟩ | ⟨h, h'⟩
      · exact ⟨.none, .none, .nothing h⟩
      · obtain ⟨w, h1, h2⟩ := ih e
        exact ⟨.some w, .some h h1, .something h' h2⟩
    | boxed _ ih =>
      intro e
      obtain ⟨w, h1, h2⟩ := ih e
      exact ⟨.box w, .box h1, .boxed h2⟩
    | named h => rintro rfl; exact hc _ (.named h)
    | widen a b c => rintro rfl; exact hc _ (.widen a b c)
    | unboxed h => rintro rfl; exact hc _ (.unboxed h)
    | list a b h => rintro rfl; exact hc _ (.list a b h)
    | option h => rintro rfl; exact hc _ (.option h)
    | parens ps a b h => rintro rfl; exact hc _ (.parens ps a b h)
    | hmap h => rintro rfl; exact hc _ (.hmap h)
    | bmap h => rintro rfl; exact hc _ (.bmap h)
  exact main t u hu rfl

/-! ## Lists -/

theorem rmig_items {t : Ty} (vs : List Val) (h : ∀ v ∈ vs, RMig env env' fl R t v) :
    ∃ qs : List (Val × RTree), qs.map (·.1) = vs ∧
      (qs.map (·.2)).length = (serRonAll env fl t vs).length ∧
      (∀ p ∈ (qs.map (·.2)).zip (serRonAll env fl t vs), RSpells fl p.1 p.2) ∧
      ∀ q ∈ qs, RMigAt env env' fl R t q.1 q.2 := by
  induction vs with
  | nil => exact ⟨[], rfl, rfl, by simp, by simp⟩
  | cons v vs ih =>
    obtain ⟨qs, h1, h2, h3, h4⟩ := ih fun w hw => h w (by simp [hw])
    obtain ⟨x, hs, hx⟩ := h v (by simp)
    refine ⟨(v, x) :: qs, by simp [h1], by simpa [serRonAll] using h2, ?_, ?_⟩
    · intro p hp
      simp only [serRonAll, List.map_cons, List.zip_cons_cons, List.mem_cons] at hp
      rcases hp with rfl | hp
      · exact hs
      · exact h3 p hp
    · exact List.forall_mem_cons.2 ⟨hx, h4⟩

theorem rmig_tys (ts : List Ty) (vs : List Val) (hT : TysTy env ts vs) (h : ∀ p ∈ ts.zip vs, RMig env env' fl R p.1 p.2) :
    ∃ qs : List (Ty × Val × RTree), qs.map (·.1) = ts ∧ qs.map (·.2.1) = vs ∧
      (qs.map (·.2.2)).length = (serRonTys env fl ts vs).length ∧
      (∀ p ∈ (qs.map (·.2.2)).zip (serRonTys env fl ts vs), RSpells fl p.1 p.2) ∧
      ∀ q ∈ qs, RMigAt env env' fl R q.1 q.2.1 q.2.2 := by
  induction ts generalizing vs with
  | nil =>
    cases vs with
    | nil => exact ⟨[], rfl, rfl, rfl, by simp, by simp⟩
    | cons v vs => simp [TysTy] at hT
  | cons t ts ih =>
    cases vs with
    | nil => simp [TysTy] at hT
    | cons v vs =>
      simp only [TysTy] at hT
      obtain ⟨qs, h1, h1', h2, h3, h4⟩ := ih vs hT.2 fun p hp => h p (by simp [hp])
      obtain ⟨x, hs, hx⟩ := h (t, v) (by simp)
      refine ⟨(t, v, x) :: qs, by simp [h1], by simp [h1'], by simpa [serRonTys] using h2, ?_, ?_⟩
      · intro p hp
        simp only [serRonTys, List.map_cons, List.zip_cons_cons, List.mem_cons] at hp
        rcases hp with rfl | hp
        · exact hs
        · exact h3 p hp
      · exact List.forall_mem_cons.2 ⟨hx, h4⟩

theorem rmig_entries {k t : Ty} (vs : List Val)
    (h : ∀ v ∈ vs, ∃ a b, v = .entry a b ∧ RMig env env' fl R k a ∧ RMig env env' fl R t b) :
    ∃ qs : List ((Val × RTree) × (Val × RTree)), (qs.map fun q => Val.entry q.1.1 q.2.1) = vs ∧
      (qs.map fun q => (q.1.2, q.2.2)).length = (serRonEntries env fl k t vs).length ∧
      (∀ p ∈ (qs.map fun q => (q.1.2, q.2.2)).zip (serRonEntries env fl k t vs),
        RLSpells fl (p.1.1.lexemes ++ .punct .colon :: p.1.2.lexemes) p.2) ∧
      ∀ q ∈ qs, RMigAt env env' fl R k q.1.1 q.1.2 ∧ RMigAt env env' fl R t q.2.1 q.2.2 := by
  induction vs with
  | nil => exact ⟨[], rfl, rfl, by simp, by simp⟩
  | cons v vs ih =>
    obtain ⟨qs, h1, h2, h3, h4⟩ := ih fun w hw => h w (by simp [hw])
    obtain ⟨a, b, rfl, ⟨K, ks, hK⟩, ⟨J, hs, hJ⟩⟩ := h v (by simp)
    refine ⟨((a, K), (b, J)) :: qs, by simp [h1], by simpa [serRonEntries] using h2, ?_, ?_⟩
    · intro p hp
      simp only [serRonEntries, List.map_cons, List.zip_cons_cons, List.mem_cons] at hp
      rcases hp with rfl | hp
      · exact RLSpells.append ks (RLSpells.punct .colon hs) fun r _ => RSepText.cons (by simp)
      · exact h3 p hp
    · exact List.forall_mem_cons.2 ⟨⟨hK, hJ⟩, h4⟩

/-- A value for each item. -/
theorem rmig_choose {t u : Ty} (hu : RTyEvo env env' R t u) (qs : List (Val × RTree))
    (h : ∀ q ∈ qs, RMigAt env env' fl R t q.1 q.2) :
    ∃ rs : List (Val × RTree × Val), rs.map (fun r => (r.1, r.2.1)) = qs ∧
      ∀ r ∈ rs, RonMeans env' fl u r.2.1 r.2.2 ∧ RMigrates env env' t u r.1 r.2.2 :=
  exists_preimage qs fun q hq => by
    obtain ⟨w, h1, h2⟩ := (h q hq).2.2 u hu
    exact ⟨(q.1, q.2, w), rfl, h1, h2⟩

theorem rmig_chooseTys (ps : List (Ty × Ty)) (hu : ∀ p ∈ ps, RTyEvo env env' R p.1 p.2) (qs : List (Ty × Val × RTree))
    (e : qs.map (·.1) = ps.map (·.1)) (h : ∀ q ∈ qs, RMigAt env env' fl R q.1 q.2.1 q.2.2) :
    ∃ rs : List ((Ty × Ty) × (Val × RTree × Val)), rs.map (·.1) = ps ∧ rs.map (fun r => (r.1.1, r.2.1, r.2.2.1)) = qs ∧
      ∀ r ∈ rs, RonMeans env' fl r.1.2 r.2.2.1 r.2.2.2 ∧ RMigrates env env' r.1.1 r.1.2 r.2.1 r.2.2.2 := by
  induction ps generalizing qs with
  | nil =>
    cases qs with
    | nil => exact ⟨[], rfl, rfl, by simp⟩
    | cons q qs => simp at e
  | cons p ps ih =>
    cases qs with
    | nil => simp at e
    | cons q qs =>
      obtain ⟨a, b⟩ := p
      obtain ⟨a', v, J⟩ := q
      simp only [List.map_cons, List.cons.injEq] at e
      obtain ⟨rfl, e2⟩ := e
      obtain ⟨rs, h1, h2, h3⟩ := ih (fun p hp => hu p (by simp [hp])) qs e2 (fun q hq => h q (by simp [hq]))
      obtain ⟨w, w1, w2⟩ := (h (a', v, J) (List.mem_cons_self ..)).2.2 b (hu (a', b) (List.mem_cons_self ..))
      exact ⟨((a', b), (v, J, w)) :: rs, by simp [h1], by simp [h2], List.forall_mem_cons.2 ⟨⟨w1, w2⟩, h3⟩⟩

/-! ## Parentheses -/

theorem Parens.unique {t : Ty} {ts ts' : List Ty} {c c' : List Val → Val} (h : Parens env t ts c) (h' : Parens env t ts' c') :
    ts = ts' ∧ c = c' := by
  cases h with
  | tuple a =>
    cases h' with
    | tuple b =>
      rw [a] at b
      injection b with b
      injection b with b
      exact ⟨b, rfl⟩
  | _ => cases h'; exact ⟨rfl, rfl⟩

/-- What is written between parentheses. -/
theorem means_parens {t : Ty} {ts : List Ty} {c : List Val → Val} (h : Parens env t ts c) {tr : Bool} (ps : List (Ty × RTree × Val))
    (e : ps.map (·.1) = ts) (hp : ∀ p ∈ ps, RonMeans env fl p.1 p.2.1 p.2.2) :
    RonMeans env fl t (.tuple (ps.map (·.2.1)) tr) (c (ps.map (·.2.2))) := by
  cases h with
  | unit =>
    obtain rfl := List.map_eq_nil_iff.1 e
    exact .unit
  | pair => exact .pair ps e hp
  | triple => exact .triple ps e hp
  | quad => exact .quad ps e hp
  | @array t n =>
    have := RonMeans.array (env := env) (fl := fl) (t := t) (n := n) (tr := tr) (ps.map (·.2))
      (by have := congrArg List.length e; simpa using this) (by
        intro q hq
        obtain ⟨p, hp', rfl⟩ := List.mem_map.1 hq
        have h1 := hp p hp'
        have h2 : p.1 = t := List.eq_of_mem_replicate (e ▸ List.mem_map.2 ⟨p, hp', rfl⟩)
        rwa [h2] at h1)
    simpa [List.map_map, Function.comp_def] using this
  | tuple h => exact .tupleStruct ps (by rw [e]; exact h) hp

/-! ## Fields -/

/-- The members written for the fields. -/
structure RMembersOf (P : Field → Val → RTree → Prop) (fs : List Field)
    (vs : List Val) (qs : List (List Char × RTree)) : Prop where
  source : ∀ q ∈ qs, ∃ f v, (f, v) ∈ fs.zip vs ∧ Written neverNull f v ∧ q.1 = f.jsonName ∧ P f v q.2
  member : ∀ f v, (f, v) ∈ fs.zip vs → Written neverNull f v → ∃ q ∈ qs, q.1 = f.jsonName

theorem RMembersOf.nil {P : Field → Val → RTree → Prop} : RMembersOf P [] [] [] := ⟨by simp, by simp⟩

theorem RMembersOf.skip {P : Field → Val → RTree → Prop} {f fs v vs qs} (h : RMembersOf P fs vs qs)
    (hn : ¬ Written neverNull f v) : RMembersOf P (f :: fs) (v :: vs) qs := by
  refine ⟨fun q hq => ?_, fun g w hg hw => ?_⟩
  · obtain ⟨f', v', h1, h2⟩ := h.source q hq
    exact ⟨f', v', by simp [h1], h2⟩
  · simp only [List.zip_cons_cons, List.mem_cons, Prod.mk.injEq] at hg
    rcases hg with ⟨rfl, rfl⟩ | hg
    · exact absurd hw hn
    · exact h.member g w hg hw

theorem RMembersOf.put {P : Field → Val → RTree → Prop} {f fs v vs qs x} (h : RMembersOf P fs vs qs)
    (hn : Written neverNull f v) (hx : P f v x) :
    RMembersOf P (f :: fs) (v :: vs) ((f.jsonName, x) :: qs) := by
  refine ⟨fun q hq => ?_, fun g w hg hw => ?_⟩
  · rcases List.mem_cons.1 hq with rfl | hq
    · exact ⟨f, v, by simp, hn, rfl, hx⟩
    · obtain ⟨f', v', h1, h2⟩ := h.source q hq
      exact ⟨f', v', by simp [h1], h2⟩
  · simp only [List.zip_cons_cons, List.mem_cons, Prod.mk.injEq] at hg
    rcases hg with ⟨rfl, rfl⟩ | hg
    · exact ⟨(g.jsonName, x), by simp, rfl⟩
    · obtain ⟨q, h1, h2⟩ := h.member g w hg hw
      exact ⟨q, by simp [h1], h2⟩

theorem rmig_fields (fs : List Field) (vs : List Val)
    (hT : FieldsTy env fs vs) (hH : HoldsFields env (RonNodeOk env) Field.absentValue false true fs vs)
    (ih : ∀ f v, (f, v) ∈ fs.zip vs → RonExact env f.ty v → RMig env env' fl R f.ty v)
    (hnames : ∀ f ∈ fs, f.skip = false → RonName f.jsonName) :
    ∃ qs : List (List Char × RTree), qs.length = (serRonFields env fl true fs vs).length ∧
      (∀ p ∈ qs.zip (serRonFields env fl true fs vs), RLSpells fl (.word p.1.1 :: .punct .colon :: p.1.2.lexemes) p.2) ∧
      RMembersOf (fun f v x => RMigAt env env' fl R f.ty v x) fs vs qs := by
  induction fs generalizing vs with
  | nil =>
    cases vs with
    | nil => exact ⟨[], rfl, by simp, .nil⟩
    | cons v vs => simp [FieldsTy] at hT
  | cons f fs ihf =>
    cases vs with
    | nil => simp [FieldsTy] at hT
    | cons v vs =>
      simp only [FieldsTy] at hT
      simp only [HoldsFields] at hH
      obtain ⟨qs, h1, h2, h3⟩ := ihf vs hT.2 hH.2 (fun g w hg => ih g w (by simp [hg])) (fun g hg => hnames g (by simp [hg]))
      by_cases hw : Written neverNull f v
      · rw [if_neg (by simp [hw.1])] at hH
        obtain ⟨x, hs, hx⟩ := ih f v (by simp) hH.1
        have hn : ¬ (f.optSyn = true ∧ v.isNone = true) := by
          rintro ⟨a, b⟩
          have := hw.2 a (by cases v <;> simp [Val.isNone] at b ⊢)
          cases this
        have e : serRonFields env fl true (f :: fs) (v :: vs) =
            ronMember f.jsonName (serRon env fl f.ty v) :: serRonFields env fl true fs vs := by
          rw [serRonFields, if_neg (by simp [hw.1]), if_neg hn]
          rfl
        rw [e]
        refine ⟨(f.jsonName, x) :: qs, by simpa using h1, ?_, h3.put hw hx⟩
        intro p hp
        simp only [List.zip_cons_cons, List.mem_cons] at hp
        rcases hp with rfl | hp
        · exact RLSpells.append (.single (.word (hnames f (by simp) hw.1).1)) (RLSpells.punct .colon hs) fun r _ => RSepText.cons (by simp)
        · exact h2 p hp
      · have e : serRonFields env fl true (f :: fs) (v :: vs) = serRonFields env fl true fs vs := by
          rw [serRonFields]
          cases hsk : f.skip with
          | true => simp
          | false =>
            have : f.optSyn = true ∧ v = .none := by
              refine Classical.byContradiction fun hc => hw ⟨hsk, fun a b => absurd ⟨a, b⟩ hc⟩
            rw [if_neg (by simp), if_pos ⟨this.1, by rw [this.2]; rfl⟩]
        exact ⟨qs, by rw [e]; exact h1, by rw [e]; exact h2, h3.skip hw⟩

/-- What the new program makes of the members. -/
theorem rmig_members {P : Field → Val → RTree → Prop} {M : Field → Field → Val → Val → Prop} {cd : Bool} {fs gs : List Field}
    {vs : List Val} {qs : List (List Char × RTree)}
    (hd : DistinctNames fs) (hnames : ∀ f ∈ fs, f.skip = false → RonName f.jsonName) (hl : fs.length = vs.length) (hd' : DistinctNames gs)
    (hkept : ∀ f ∈ fs, f.skip = false → ∃ g ∈ gs, g.skip = false ∧ g.jsonName = f.jsonName ∧
      ∀ v x, P f v x → ∃ w, RonMeans env' fl g.ty x w ∧ M f g v w)
    (hadded : ∀ g ∈ gs, g.mayBeAbsent cd ∨ ∃ f ∈ fs, f.skip = false ∧ f.jsonName = g.jsonName ∧ f.optSyn = false)
    (h : RMembersOf P fs vs qs) :
    ∃ (ps : List RMember) (ws : List Val), (ps.map fun p => (p.1, p.2.1)) = qs ∧ FieldsGet cd gs ps ws ∧
      (∀ p ∈ ps, ∀ g ∈ gs, g.skip = false → g.jsonName = p.1 → RonMeans env' fl g.ty p.2.1 p.2.2) ∧
      FieldsMigrate M neverNull fs gs vs ws := by
  obtain ⟨ps, hps, hpr⟩ := exists_preimage (g := fun p : RMember => (p.1, p.2.1))
    (Q := fun p => (∀ g ∈ gs, g.skip = false → g.jsonName = p.1 → RonMeans env' fl g.ty p.2.1 p.2.2) ∧
      ((∀ g ∈ gs, g.skip = false → g.jsonName = p.1 → ∀ f v, (f, v) ∈ fs.zip vs → Written neverNull f v → f.jsonName = p.1 →
        M f g v p.2.2)) ∧ NotBool p.1 ∧ ∃ g ∈ gs, g.skip = false ∧ g.jsonName = p.1) qs (by
      intro q hq
      obtain ⟨f, v, h1, h2, h3, h4⟩ := h.source q hq
      have hfm := (List.of_mem_zip h1).1
      obtain ⟨g, g1, g2, g3, g4⟩ := hkept f hfm h2.1
      obtain ⟨w, w1, w2⟩ := g4 _ _ h4
      refine ⟨(q.1, q.2, w), rfl, ?_, ?_, ?_, g, g1, g2, by rw [g3, ← h3]⟩
      · intro g' hg' s' e'
        obtain rfl := distinct_eq hd' hg' g1 s' g2 (by rw [e', g3, ← h3])
        exact w1
      · intro g' hg' s' e' f' v' hf' hw' ef
        obtain rfl := distinct_eq hd' hg' g1 s' g2 (by rw [e', g3, ← h3])
        obtain ⟨rfl, rfl⟩ := distinct_zip hd hf' h1 hw'.1 h2.1 (by rw [ef, h3])
        exact w2
      · show NotBool q.1
        rw [h3]
        exact (hnames f hfm h2.1).2)
  have hmem : ∀ p ∈ ps, (p.1, p.2.1) ∈ qs := fun p hp => hps ▸ List.mem_map.2 ⟨p, hp, rfl⟩
  obtain ⟨gw, hgw, hgr⟩ := exists_preimage (g := fun p : Field × Val => p.1)
    (Q := fun p => p.1 ∈ gs ∧ FieldGets cd ps p.1 p.2 ∧
      (p.1.skip = false → ∀ f v, (f, v) ∈ fs.zip vs → Written neverNull f v → f.jsonName = p.1.jsonName →
        M f p.1 v p.2) ∧
      ((p.1.skip = true ∨ ∀ f v, (f, v) ∈ fs.zip vs → Written neverNull f v → f.jsonName ≠ p.1.jsonName) → p.2 = p.1.absentValue)) gs (by
      intro g hg
      cases hs : g.skip with
      | true =>
        refine ⟨(g, g.absentValue), rfl, hg, by simp [FieldGets, hs], by simp [hs], fun _ => rfl⟩
      | false =>
        by_cases hp : ∃ p ∈ ps, p.1 = g.jsonName
        · obtain ⟨a, p, b, h1, h2, h3⟩ := last_named_ev hp
          have hpm : p ∈ ps := by rw [h1]; simp
          refine ⟨(g, p.2.2), rfl, hg, ?_, ?_, ?_⟩
          · unfold FieldGets
            rw [if_neg (by simp [hs])]
            exact .inl ⟨a, p, b, h1, h2, h3, rfl⟩
          · intro _ f v hf hw e
            exact (hpr p hpm).2.1 g hg hs h2.symm f v hf hw (by rw [e, h2])
          · rintro (hc | hc)
            · rw [hs] at hc; cases hc
            · obtain ⟨f, v, f1, f2, f3, _⟩ := h.source _ (hmem p hpm)
              exact absurd (by rw [← f3, h2]) (hc f v f1 f2)
        · have hno : ∀ f v, (f, v) ∈ fs.zip vs → Written neverNull f v → f.jsonName ≠ g.jsonName := by
            intro f v hf hw e
            obtain ⟨q, hq, e'⟩ := h.member f v hf hw
            rw [← hps] at hq
            obtain ⟨p, hp', rfl⟩ := List.mem_map.1 hq
            exact hp ⟨p, hp', by rw [← e]; exact e'⟩
          refine ⟨(g, g.absentValue), rfl, hg, ?_, ?_, fun _ => rfl⟩
          · unfold FieldGets
            rw [if_neg (by simp [hs])]
            refine .inr ⟨fun q hq e => hp ⟨q, hq, e⟩, ?_, rfl⟩
            rcases hadded g hg with h' | ⟨f, f1, f2, f3, f4⟩
            · exact h'
            · obtain ⟨i, hi, e⟩ := List.mem_iff_getElem.1 f1
              have hz : (f, vs[i]'(by omega)) ∈ fs.zip vs :=
                mem_zip_of_get (i := i) (by rw [List.getElem?_eq_getElem hi, e]) (by rw [List.getElem?_eq_getElem])
              exact absurd f3 (hno f _ hz ⟨f2, fun a _ => by rw [f4] at a; cases a⟩)
          · intro _ f v hf hw e
            exact absurd e (hno f v hf hw))
  have hz : ∀ g w, (g, w) ∈ gs.zip (gw.map (·.2)) → (g, w) ∈ gw := by
    intro g w hm
    rw [← hgw] at hm
    have : ∀ (l : List (Field × Val)), (g, w) ∈ (l.map (·.1)).zip (l.map (·.2)) → (g, w) ∈ l := by
      intro l
      induction l with
      | nil => simp
      | cons x xs ih =>
        simp only [List.map_cons, List.zip_cons_cons, List.mem_cons]
        rintro (h | h)
        · exact .inl h
        · exact .inr (ih h)
    exact this gw hm
  refine ⟨ps, gw.map (·.2), hps, ⟨hd', fun p hp => (hpr p hp).2.2, by rw [← hgw]; simp, ?_⟩, fun p hp => (hpr p hp).1,
    by rw [← hgw]; simp, ?_, ?_⟩
  · intro i g w hg hw
    exact (hgr _ (hz g w (mem_zip_of_get hg hw))).2.1
  · intro g w f v hg hf hs hw e
    exact (hgr _ (hz g w hg)).2.2.1 hs f v hf hw e
  · intro g w hg hc
    exact (hgr _ (hz g w hg)).2.2.2 hc

/-- The old program reads the members back. -/
theorem rself_members {P : Field → Val → RTree → Prop} {cd : Bool} {fs : List Field} {vs : List Val} {qs : List (List Char × RTree)}
    (hd : DistinctNames fs) (hnames : ∀ f ∈ fs, f.skip = false → RonName f.jsonName) (hl : fs.length = vs.length)
    (hom : ∀ f ∈ fs, f.skip = false → f.optSyn = true → f.absentValue = .none)
    (hsk : ∀ f v, (f, v) ∈ fs.zip vs → f.skip = true → v = f.absentValue)
    (hP : ∀ f v x, P f v x → RonMeans env fl f.ty x v) (h : RMembersOf P fs vs qs) :
    ∃ ps : List RMember, (ps.map fun p => (p.1, p.2.1)) = qs ∧ FieldsGet cd fs ps vs ∧
      ∀ p ∈ ps, ∀ g ∈ fs, g.skip = false → g.jsonName = p.1 → RonMeans env fl g.ty p.2.1 p.2.2 := by
  obtain ⟨ps, ws, h1, h2, h3, h4, h5, h6⟩ := rmig_members (env' := env) (fl := fl) (cd := cd) (gs := fs)
    (M := fun f g v w => f = g ∧ v = w) hd hnames hl hd
    (fun f hf hs => ⟨f, hf, hs, rfl, fun v x hx => ⟨v, hP f v x hx, rfl, rfl⟩⟩)
    (fun g hg => by
      cases hs : g.skip with
      | true => exact .inl (.inl hs)
      | false =>
        cases ho : g.optSyn with
        | true => exact .inl (.inr (.inl ho))
        | false => exact .inr ⟨g, hg, hs, rfl, ho⟩) h
  have : ws = vs := by
    refine List.ext_getElem? fun i => ?_
    by_cases hi : i < fs.length
    · have hwi : ws[i]? = some (ws[i]'(by omega)) := List.getElem?_eq_getElem _
      have hvi : vs[i]? = some (vs[i]'(by omega)) := List.getElem?_eq_getElem _
      have hfi : fs[i]? = some (fs[i]'hi) := List.getElem?_eq_getElem _
      have m1 := mem_zip_of_get hfi hwi
      have m2 := mem_zip_of_get hfi hvi
      rw [hwi, hvi]
      congr 1
      generalize fs[i]'hi = f at *
      generalize ws[i]'(by omega) = w at *
      generalize vs[i]'(by omega) = v at *
      have hf := (List.of_mem_zip m1).1
      by_cases hw : Written neverNull f v
      · exact (h5 f w f v m1 m2 hw.1 hw rfl).2.symm
      · cases hs : f.skip with
        | true => rw [hsk f v m2 hs]; exact h6 f w m1 (.inl hs)
        | false =>
          have hv : f.optSyn = true ∧ v = .none :=
            Classical.byContradiction fun hc => hw ⟨hs, fun a b => absurd ⟨a, b⟩ hc⟩
          rw [hv.2, ← hom f hf hs hv.1]
          refine h6 f w m1 (.inr fun f' v' m' hw' e => ?_)
          obtain ⟨rfl, rfl⟩ := distinct_zip hd m' m2 hw'.1 hs e
          exact hw hw'
    · rw [List.getElem?_eq_none (by omega), List.getElem?_eq_none (by omega)]
  exact ⟨ps, h1, this ▸ h2, h3⟩

theorem holds_skipped {P : Ty → Val → Prop} {fs : List Field} {vs : List Val} (h : HoldsFields env P Field.absentValue false true fs vs)
    {f v} (hm : (f, v) ∈ fs.zip vs) (hs : f.skip = true) : v = f.absentValue := by
  induction fs generalizing vs with
  | nil => simp at hm
  | cons g gs ih =>
    cases vs with
    | nil => simp at hm
    | cons w ws =>
      simp only [HoldsFields] at h
      simp only [List.zip_cons_cons, List.mem_cons, Prod.mk.injEq] at hm
      rcases hm with ⟨rfl, rfl⟩ | hm
      · rw [if_pos ⟨trivial, hs⟩] at h; exact h.1
      · exact ih h.2 hm

end NS
