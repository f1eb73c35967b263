import Verif.Lemmas.JsonRoundTrip
import Verif.Lemmas.JsonMeans3
import Verif.Lemmas.JsonTotal
import Verif.Spec.Evolve
/-! What the old program writes, the new one reads (for C80). -/
namespace NS
variable {env env' : Env} {fl : FloatOps} {R : Nat → Nat → Prop}

/-! ## A document keeps its meaning when types are added -/

theorem JsonMeans.extend (hE : Extends env env') {t : Ty} {J : JTree} {v : Val} (h : JsonMeans env fl t J v) :
    JsonMeans env' fl t J v := by
  induction h with
  | unit => exact .unit
  | bool => exact .bool
  | int a b c d => exact .int a b c d
  | intWrap a b c d e f => exact .intWrap a b c d e f
  | f32 => exact .f32
  | f64 => exact .f64
  | str => exact .str
  | dur a b c => exact .dur a b c
  | epoch => exact .epoch
  | time a b c => exact .time a b c
  | none => exact .none
  | some a _ ih => exact .some a ih
  | vec ps _ ih => exact .vec ps ih
  | linked ps _ ih => exact .linked ps ih
  | hset ps _ ih => exact .hset ps ih
  | bset ps _ hs ih => exact .bset ps ih (by unfold SetOf at hs ⊢; rw [hE.cmp]; exact hs)
  | array ps h _ ih => exact .array ps h ih
  | pair ps h _ ih => exact .pair ps h ih
  | triple ps h _ ih => exact .triple ps h ih
  | quad ps h _ ih => exact .quad ps h ih
  | hmap ps _ _ a b ih1 ih2 => exact .hmap ps ih1 ih2 a b
  | bmap ps _ _ a b ih1 ih2 => exact .bmap ps ih1 ih2 a (by rw [hE.cmp]; exact b)
  | box _ ih => exact .box ih
  | struct ps a b _ ih => exact .struct ps (hE.defs _ _ a) b ih
  | noFields a => exact .noFields (hE.defs _ _ a)
  | transparent a _ ih => exact .transparent (hE.defs _ _ a) ih
  | newtype a _ ih => exact .newtype (hE.defs _ _ a) ih
  | tupleStruct ps a b _ ih => exact .tupleStruct ps (hE.defs _ _ a) b ih
  | variant a b c => exact .variant (hE.defs _ _ a) b c
  | tupleVariant ps a b c _ ih => exact .tupleVariant ps (hE.defs _ _ a) b c ih
  | structVariant ps a b c d _ ih => exact .structVariant ps (hE.defs _ _ a) b c d ih
  | proxied a _ ih => exact .proxied (hE.proxies _ _ a) ih

theorem JsonEnvOk.distinctProg (h : JsonEnvOk env) : DistinctProg env := by
  have key : ∀ fs : List Field, ((fs.filter fun f => !f.skip).Pairwise fun f g => f.jsonName ≠ g.jsonName) → DistinctNames fs := by
    intro fs hf
    unfold DistinctNames
    rw [List.pairwise_filter] at hf
    exact hf.imp fun h a b => h (by simp [a]) (by simp [b])
  refine ⟨fun i fs cd nul e => key fs (h i _ e).distinct, fun i vars e => (h i _ e).2.1, fun i vars e v hv fs hs => ?_⟩
  have := (h i _ e).2.2 v hv fs hs
  unfold DistinctNames
  refine this.distinct.imp_of_mem ?_
  intro a b ha hb hne _ _
  simpa [Field.jsonName, this.noRename a ha, this.noRename b hb] using hne

/-- The tree spelled by the text of a value means that value. -/
theorem means_of_text (hw : ProgWf env) (hp : Productive env) (hk : LawfulKeys env) (hfl : FloatLaws fl) (hE : JsonEnvOk env)
    {t : Ty} (ht : TyWf env t) {v : Val} {J : JTree}
    (hT : HasTy env t v) (hX : JsonExactT env fl t v) (hJ : Spells fl J (serJson env fl t v)) : JsonMeans env fl t J v := by
  have h1 := json_roundtrip hk hfl hE hT hX
  have h2 := (den_decodes hw hp ht hJ.text).1 h1
  obtain ⟨_, n, h3⟩ := (den_settles hw hp ht).2 h2
  exact means_of_decode hk hE.distinctProg n t J v hJ.text.spellable (h3 n (Nat.le_refl _))

/-! ## The tree that is written, and what the new program makes of it -/

/-- What the new program makes of the tree `J` written for `v`. -/
def JMigAt (env env' : Env) (fl : FloatOps) (R : Nat → Nat → Prop) (t : Ty) (v : Val) (J : JTree) : Prop :=
  JsonMeans env fl t J v ∧ (J = .null ↔ NullForm env t v) ∧ ∀ u, TyEvo env env' R t u → ∃ w, JsonMeans env' fl u J w ∧ Migrates env env' t u v w

/-- A tree is written, of which the new program makes the right thing. -/
def JMig (env env' : Env) (fl : FloatOps) (R : Nat → Nat → Prop) (t : Ty) (v : Val) : Prop :=
  ∃ J, Spells fl J (serJson env fl t v) ∧ JMigAt env env' fl R t v J

/-- The replacements that depend on the old type. -/
inductive Core (env env' : Env) (R : Nat → Nat → Prop) : Ty → Ty → Prop where
  | named {i j} : R i j → Core env env' R (.named i) (.named j)
  | widen {k l} : k.textual = true → l.textual = true → (∀ i, k.inRange i → l.inRange i) →
      Core env env' R (.int k) (.int l)
  | unboxed {t u} : TyEvo env env' R t u → Core env env' R (.box t) u
  | unwrap {i t u} : env.defs[i]? = some (.tuple [t] true) → TyEvo env env' R t u → Core env env' R (.named i) u
  | list {t u a b} : WrittenAsList t a → ListOf u b → TyEvo env env' R a b → Core env env' R t u
  | option {t u} : TyEvo env env' R t u → Core env env' R (.option t) (.option u)
  | array {t u n} : TyEvo env env' R t u → Core env env' R (.array t n) (.array u n)
  | pair {a b a' b'} : TyEvo env env' R a a' → TyEvo env env' R b b' → Core env env' R (.pair a b) (.pair a' b')
  | triple {a b c a' b' c'} : TyEvo env env' R a a' → TyEvo env env' R b b' → TyEvo env env' R c c' →
      Core env env' R (.triple a b c) (.triple a' b' c')
  | quad {a b c d a' b' c' d'} : TyEvo env env' R a a' → TyEvo env env' R b b' → TyEvo env env' R c c' →
      TyEvo env env' R d d' → Core env env' R (.quad a b c d) (.quad a' b' c' d')
  | hmap {k t u} : TyEvo env env' R t u → Core env env' R (.hmap k t) (.hmap k u)
  | bmap {k t u} : TyEvo env env' R t u → Core env env' R (.bmap k t) (.bmap k u)

theorem migAt_of (hEx : Extends env env') {t : Ty} {v : Val} {J : JTree} (hJ : JsonMeans env fl t J v)
    (hn : J = .null ↔ NullForm env t v)
    (hc : ∀ u, Core env env' R t u → ∃ w, JsonMeans env' fl u J w ∧ Migrates env env' t u v w) :
    JMigAt env env' fl R t v J := by
  refine ⟨hJ, hn, fun u hu => ?_⟩
  have main : ∀ t' u, TyEvo env env' R t' u → t' = t → ∃ w, JsonMeans env' fl u J w ∧ Migrates env env' t u v w := by
    intro t' u hu
    induction hu with
    | same => rintro rfl; exact ⟨v, hJ.extend hEx, .same⟩
    | optional _ ih =>
      intro e
      by_cases hJn : J = .null
      · exact ⟨.none, hJn ▸ .none, .nothing (hn.1 hJn)⟩
      · obtain ⟨w, h1, h2⟩ := ih e
        exact ⟨.some w, .some hJn h1, .something (fun h => hJn (hn.2 h)) h2⟩
    | boxed _ ih =>
      intro e
      obtain ⟨w, h1, h2⟩ := ih e
      exact ⟨.box w, .box h1, .boxed h2⟩
    | wrap hd _ ih =>
      intro e
      obtain ⟨w, h1, h2⟩ := ih e
      exact ⟨.struct [w], .transparent hd h1, .wrap hd h2⟩
    | named h => rintro rfl; exact hc _ (.named h)
    | widen a b c => rintro rfl; exact hc _ (.widen a b c)
    | unboxed h => rintro rfl; exact hc _ (.unboxed h)
    | unwrap a h => rintro rfl; exact hc _ (.unwrap a h)
    | list a b h => rintro rfl; exact hc _ (.list a b h)
    | option h => rintro rfl; exact hc _ (.option h)
    | array h => rintro rfl; exact hc _ (.array h)
    | pair a b => rintro rfl; exact hc _ (.pair a b)
    | triple a b c => rintro rfl; exact hc _ (.triple a b c)
    | quad a b c d => rintro rfl; exact hc _ (.quad a b c d)
    | hmap h => rintro rfl; exact hc _ (.hmap h)
    | bmap h => rintro rfl; exact hc _ (.bmap h)
  exact main t u hu rfl

/-! ## Lists -/

theorem mig_items {t : Ty} (vs : List Val) (h : ∀ v ∈ vs, JMig env env' fl R t v) :
    ∃ qs : List (Val × JTree), qs.map (·.1) = vs ∧
      ((qs.map (·.2)).length = (serJsonAll env fl t vs).length ∧
        ∀ p ∈ (qs.map (·.2)).zip (serJsonAll env fl t vs), Spells fl p.1 p.2) ∧
      ∀ q ∈ qs, JMigAt env env' fl R t q.1 q.2 := by
  induction vs with
  | nil => exact ⟨[], rfl, ⟨rfl, by simp⟩, by simp⟩
  | cons v vs ih =>
    obtain ⟨qs, h1, ⟨h2, h3⟩, h4⟩ := ih fun w hw => h w (by simp [hw])
    obtain ⟨J, hs, hJ⟩ := h v (by simp)
    refine ⟨(v, J) :: qs, by simp [h1], ⟨by simpa [serJsonAll] using h2, ?_⟩, ?_⟩
    · intro p hp
      simp only [serJsonAll, List.map_cons, List.zip_cons_cons, List.mem_cons] at hp
      rcases hp with rfl | hp
      · exact hs
      · exact h3 p hp
    · intro q hq
      rcases List.mem_cons.1 hq with rfl | hq
      · exact hJ
      · exact h4 q hq

theorem mig_tys (ts : List Ty) (vs : List Val) (hT : TysTy env ts vs) (h : ∀ p ∈ ts.zip vs, JMig env env' fl R p.1 p.2) :
    ∃ qs : List (Ty × Val × JTree), qs.map (·.1) = ts ∧ qs.map (·.2.1) = vs ∧
      ((qs.map (·.2.2)).length = (serJsonTys env fl ts vs).length ∧
        ∀ p ∈ (qs.map (·.2.2)).zip (serJsonTys env fl ts vs), Spells fl p.1 p.2) ∧
      ∀ q ∈ qs, JMigAt env env' fl R q.1 q.2.1 q.2.2 := by
  induction ts generalizing vs with
  | nil =>
    cases vs with
    | nil => exact ⟨[], rfl, rfl, ⟨rfl, by simp⟩, by simp⟩
    | cons v vs => simp [TysTy] at hT
  | cons t ts ih =>
    cases vs with
    | nil => simp [TysTy] at hT
    | cons v vs =>
      simp only [TysTy] at hT
      obtain ⟨qs, h1, h1', ⟨h2, h3⟩, h4⟩ := ih vs hT.2 fun p hp => h p (by simp [hp])
      obtain ⟨J, hs, hJ⟩ := h (t, v) (by simp)
      refine ⟨(t, v, J) :: qs, by simp [h1], by simp [h1'], ⟨by simpa [serJsonTys] using h2, ?_⟩, ?_⟩
      · intro p hp
        simp only [serJsonTys, List.map_cons, List.zip_cons_cons, List.mem_cons] at hp
        rcases hp with rfl | hp
        · exact hs
        · exact h3 p hp
      · intro q hq
        rcases List.mem_cons.1 hq with rfl | hq
        · exact hJ
        · exact h4 q hq

theorem mig_entries {k t : Ty} (vs : List Val)
    (h : ∀ v ∈ vs, ∃ a b, v = .entry a b ∧ JMig env env' fl R k a ∧ JMig env env' fl R t b) :
    ∃ qs : List ((Val × JTree) × (Val × JTree)), (qs.map fun q => Val.entry q.1.1 q.2.1) = vs ∧
      ((qs.map fun q => (q.1.2, q.2.2)).length = (serJsonEntries env fl k t vs).length ∧
        ∀ p ∈ (qs.map fun q => (q.1.2, q.2.2)).zip (serJsonEntries env fl k t vs), MSpells fl p.1 p.2) ∧
      ∀ q ∈ qs, JMigAt env env' fl R k q.1.1 q.1.2 ∧ JMigAt env env' fl R t q.2.1 q.2.2 := by
  induction vs with
  | nil => exact ⟨[], rfl, ⟨rfl, by simp⟩, by simp⟩
  | cons v vs ih =>
    obtain ⟨qs, h1, ⟨h2, h3⟩, h4⟩ := ih fun w hw => h w (by simp [hw])
    obtain ⟨a, b, rfl, ⟨K, ks, hK⟩, ⟨J, hs, hJ⟩⟩ := h v (by simp)
    refine ⟨((a, K), (b, J)) :: qs, by simp [h1], ⟨by simpa [serJsonEntries] using h2, ?_⟩, ?_⟩
    · intro p hp
      simp only [serJsonEntries, List.map_cons, List.zip_cons_cons, List.mem_cons] at hp
      rcases hp with rfl | hp
      · exact .of ks hs
      · exact h3 p hp
    · intro q hq
      rcases List.mem_cons.1 hq with rfl | hq
      · exact ⟨hK, hJ⟩
      · exact h4 q hq

/-! ## Fields -/

/-- What the new program makes of the tree written for a field. -/
def FMig (env env' : Env) (fl : FloatOps) (R : Nat → Nat → Prop) (f : Field) (v : Val) (J : JTree) : Prop :=
  JMigAt env env' fl R f.ty v J ∧ ∀ t, f.ty = .option t → v = .none ∨ J ≠ .null

/-- The members written for the fields. -/
structure MembersOf (env env' : Env) (fl : FloatOps) (R : Nat → Nat → Prop) (nulls : Field → Bool) (fs : List Field)
    (vs : List Val) (qs : List (List Char × JTree)) : Prop where
  source : ∀ q ∈ qs, ∃ f v, (f, v) ∈ fs.zip vs ∧ Written nulls f v ∧ q.1 = f.jsonName ∧ FMig env env' fl R f v q.2
  member : ∀ f v, (f, v) ∈ fs.zip vs → Written nulls f v → ∃ q ∈ qs, q.1 = f.jsonName

theorem MembersOf.nil {nulls : Field → Bool} : MembersOf env env' fl R nulls [] [] [] := ⟨by simp, by simp⟩

theorem MembersOf.skip {nulls : Field → Bool} {f fs v vs qs} (h : MembersOf env env' fl R nulls fs vs qs)
    (hn : ¬ Written nulls f v) : MembersOf env env' fl R nulls (f :: fs) (v :: vs) qs := by
  refine ⟨fun q hq => ?_, fun g w hg hw => ?_⟩
  · obtain ⟨f', v', h1, h2⟩ := h.source q hq
    exact ⟨f', v', by simp [h1], h2⟩
  · simp only [List.zip_cons_cons, List.mem_cons, Prod.mk.injEq] at hg
    rcases hg with ⟨rfl, rfl⟩ | hg
    · exact absurd hw hn
    · exact h.member g w hg hw

theorem MembersOf.put {nulls : Field → Bool} {f fs v vs qs J} (h : MembersOf env env' fl R nulls fs vs qs)
    (hn : Written nulls f v) (hJ : FMig env env' fl R f v J) :
    MembersOf env env' fl R nulls (f :: fs) (v :: vs) ((f.jsonName, J) :: qs) := by
  refine ⟨fun q hq => ?_, fun g w hg hw => ?_⟩
  · rcases List.mem_cons.1 hq with rfl | hq
    · exact ⟨f, v, by simp, hn, rfl, hJ⟩
    · obtain ⟨f', v', h1, h2⟩ := h.source q hq
      exact ⟨f', v', by simp [h1], h2⟩
  · simp only [List.zip_cons_cons, List.mem_cons, Prod.mk.injEq] at hg
    rcases hg with ⟨rfl, rfl⟩ | hg
    · exact ⟨(g.jsonName, J), by simp, rfl⟩
    · obtain ⟨q, h1, h2⟩ := h.member g w hg hw
      exact ⟨q, by simp [h1], h2⟩

theorem fmig_of {f : Field} {v : Val} {J : JTree} (hT : HasTy env f.ty v) (hX : JsonExact env f.ty v)
    (h : JMigAt env env' fl R f.ty v J) : FMig env env' fl R f v J := by
  refine ⟨h, fun t e => ?_⟩
  rw [e] at hT hX
  cases v <;> simp only [HasTy] at hT
  · exact .inl rfl
  · rename_i w
    refine .inr fun hJ => ?_
    have h1 := h.2.1.1 hJ
    rw [e] at h1
    cases h1 with
    | some h2 => exact (Holds.head hX).2.2.2.2 t w rfl rfl h2

theorem mig_fields {nul : Bool} (fs : List Field) (vs : List Val)
    (hT : FieldsTy env fs vs) (hH : HoldsFields env (JsonNodeOk env) Field.absent false true fs vs)
    (ih : ∀ f v, (f, v) ∈ fs.zip vs → f.skip = false → JsonExact env f.ty v → JMig env env' fl R f.ty v)
    (hplain : ∀ f ∈ fs, f.skip = false → PlainName f.jsonName) :
    ∃ qs : List (List Char × JTree),
      ((qs.map fun q => (JTree.str q.1, q.2)).length = (serJsonFields env fl nul fs vs).length ∧
        ∀ p ∈ (qs.map fun q => (JTree.str q.1, q.2)).zip (serJsonFields env fl nul fs vs), MSpells fl p.1 p.2) ∧
      MembersOf env env' fl R (writesNull nul) fs vs qs := by
  induction fs generalizing vs with
  | nil =>
    cases vs with
    | nil => exact ⟨[], ⟨rfl, by simp⟩, .nil⟩
    | cons v vs => simp [FieldsTy] at hT
  | cons f fs ihf =>
    cases vs with
    | nil => simp [FieldsTy] at hT
    | cons v vs =>
      simp only [FieldsTy] at hT
      simp only [HoldsFields] at hH
      obtain ⟨qs, ⟨h1, h2⟩, h3⟩ := ihf vs hT.2 hH.2 (fun g w hg => ih g w (by simp [hg])) (fun g hg => hplain g (by simp [hg]))
      by_cases hw : Written (writesNull nul) f v
      · rw [if_neg (by simp [hw.1])] at hH
        have hX : JsonExact env f.ty v := hH.1
        obtain ⟨J, hs, hJ⟩ := ih f v (by simp) hw.1 hX
        have e : serJsonFields env fl nul (f :: fs) (v :: vs) =
            jsonMember f.key (serJson env fl f.ty v) :: serJsonFields env fl nul fs vs := by
          rw [serJsonFields, if_neg (by simp [hw.1])]
          by_cases hn : f.optSyn = true ∧ v.isNone = true
          · have hv : v = .none := by cases v <;> simp [Val.isNone] at hn ⊢
            have := hw.2 hn.1 hv
            simp only [writesNull, Bool.and_eq_true, Bool.not_eq_true'] at this
            rw [if_pos hn, if_pos (by simpa using this)]
            subst hv
            have hty := hT.1
            generalize f.ty = T at hty
            cases T <;> simp [HasTy] at hty
            simp [serJson]
          · rw [if_neg hn]
        refine ⟨(f.jsonName, J) :: qs, ⟨by rw [e]; simpa using h1, ?_⟩, h3.put hw (fmig_of hT.1 hX hJ)⟩
        rw [e]
        intro p hp
        simp only [List.map_cons, List.zip_cons_cons, List.mem_cons] at hp
        rcases hp with rfl | hp
        · exact member_spells (hplain f (by simp) hw.1) hs
        · exact h2 p hp
      · have e : serJsonFields env fl nul (f :: fs) (v :: vs) = serJsonFields env fl nul fs vs := by
          rw [serJsonFields]
          cases hsk : f.skip with
          | true => simp
          | false =>
            have : f.optSyn = true ∧ v = .none ∧ writesNull nul f = false := by
              refine Classical.byContradiction fun hc => hw ⟨hsk, fun a b => ?_⟩
              cases hq : writesNull nul f with
              | true => rfl
              | false => exact absurd ⟨a, b, hq⟩ hc
            rw [if_neg (by simp), if_pos ⟨this.1, by rw [this.2.1]; rfl⟩, if_neg]
            intro hc
            have := this.2.2
            simp [writesNull, hc.1] at this
            exact hc.2 this
        exact ⟨qs, by rw [e]; exact ⟨h1, h2⟩, h3.skip hw⟩

theorem mig_varFields (fs : List Field) (vs : List Val)
    (hT : FieldsTy env fs vs) (hH : HoldsFields env (JsonNodeOk env) Field.absent false false fs vs)
    (ih : ∀ f v, (f, v) ∈ fs.zip vs → JsonExact env f.ty v → JMig env env' fl R f.ty v)
    (hskip : ∀ f ∈ fs, f.skip = false) (hren : ∀ f ∈ fs, f.rename = none)
    (hplain : ∀ f ∈ fs, PlainName f.name) :
    ∃ (qs : List (List Char × JTree)) (tr : Bool),
      LSpells fl (commaLexemes tr ((qs.map fun q => (JTree.str q.1, q.2)).map fun m : JTree × JTree => m.1.lexemes ++ .punct .colon :: m.2.lexemes))
        (serJsonVarFields env fl fs vs) ∧ (qs = [] → serJsonVarFields env fl fs vs = []) ∧
      MembersOf env env' fl R neverNull fs vs qs := by
  induction fs generalizing vs with
  | nil =>
    cases vs with
    | nil => exact ⟨[], false, .nil, fun _ => rfl, .nil⟩
    | cons v vs => simp [FieldsTy] at hT
  | cons f fs ihf =>
    cases vs with
    | nil => simp [FieldsTy] at hT
    | cons v vs =>
      simp only [FieldsTy] at hT
      simp only [HoldsFields] at hH
      obtain ⟨qs, tr, h1, h2, h3⟩ := ihf vs hT.2 hH.2 (fun g w hg => ih g w (by simp [hg]))
        (fun g hg => hskip g (by simp [hg])) (fun g hg => hren g (by simp [hg])) (fun g hg => hplain g (by simp [hg]))
      rw [if_neg (by simp)] at hH
      by_cases hn : f.optSyn = true ∧ v.isNone = true
      · have hv : v = .none := by cases v <;> simp [Val.isNone] at hn ⊢
        have e : serJsonVarFields env fl (f :: fs) (v :: vs) = serJsonVarFields env fl fs vs := by
          rw [serJsonVarFields, if_pos hn]; rfl
        refine ⟨qs, tr, by rw [e]; exact h1, by rw [e]; exact h2, h3.skip fun hw => ?_⟩
        have := hw.2 hn.1 hv
        simp [neverNull] at this
      · have hX : JsonExact env f.ty v := hH.1
        obtain ⟨J, hs, hJ⟩ := ih f v (by simp) hX
        have hkey : f.jsonName = f.name := by simp [Field.jsonName, hren f (by simp)]
        have hm := member_spells (hplain f (by simp)) hs
        have hP := h3.put (J := J) (f := f) (v := v) ⟨hskip f (by simp), fun a b => absurd ⟨a, by rw [b]; rfl⟩ hn⟩ (fmig_of hT.1 hX hJ)
        rw [hkey] at hP
        have e : serJsonVarFields env fl (f :: fs) (v :: vs) =
            (jsonMember f.name (serJson env fl f.ty v) ++ if fs.isEmpty then [] else [',']) ++ serJsonVarFields env fl fs vs := by
          rw [serJsonVarFields, if_neg hn]
        cases fs with
        | nil =>
          obtain rfl : qs = [] := by
            cases qs with
            | nil => rfl
            | cons q qs =>
              obtain ⟨_, _, h, _⟩ := h3.source q (by simp)
              simp at h
          refine ⟨_, false, ?_, by simp, hP⟩
          rw [e]
          simp only [List.map_cons, List.map_nil, commaLexemes, List.append_nil, serJsonVarFields, List.isEmpty_nil, if_true,
            Bool.false_eq_true, if_false]
          exact hm
        | cons g gs =>
          simp only [List.isEmpty_cons] at e
          rw [if_neg (by simp)] at e
          cases qs with
          | nil =>
            refine ⟨_, true, ?_, by simp, hP⟩
            rw [e, h2 rfl]
            simp only [List.map_cons, List.map_nil, commaLexemes, List.append_nil, if_true]
            exact LSpells.append hm (.single .comma) fun r _ => SepText.cons (by simp)
          | cons m ms =>
            refine ⟨_, tr, ?_, by simp, hP⟩
            rw [e]
            simp only [List.map_cons, commaLexemes]
            rw [List.append_assoc (jsonMember _ _)]
            refine LSpells.append (a := _ ++ _) hm (LSpells.punct .comma h1) fun r _ => SepText.cons (by simp)

theorem last_named_ev {β : Type} {qs : List (List Char × β)} {k : List Char} (h : ∃ q ∈ qs, q.1 = k) :
    ∃ a q b, qs = a ++ q :: b ∧ q.1 = k ∧ ∀ x ∈ b, x.1 ≠ k := by
  induction qs with
  | nil => obtain ⟨q, hq, _⟩ := h; simp at hq
  | cons x xs ih =>
    by_cases hx : ∃ q ∈ xs, q.1 = k
    · obtain ⟨a, q, b, h1, h2, h3⟩ := ih hx
      exact ⟨x :: a, q, b, by simp [h1], h2, h3⟩
    · obtain ⟨q, hq, e⟩ := h
      rcases List.mem_cons.1 hq with rfl | hq
      · exact ⟨[], q, xs, rfl, e, fun y hy e' => hx ⟨y, hy, e'⟩⟩
      · exact absurd ⟨q, hq, e⟩ hx

theorem distinct_eq {fs : List Field} (hd : DistinctNames fs) {f g : Field} (hf : f ∈ fs) (hg : g ∈ fs)
    (h1 : f.skip = false) (h2 : g.skip = false) (e : f.jsonName = g.jsonName) : f = g := by
  unfold DistinctNames at hd
  induction fs with
  | nil => simp at hf
  | cons x xs ih =>
    rw [List.pairwise_cons] at hd
    rcases List.mem_cons.1 hf with rfl | hf'
    · rcases List.mem_cons.1 hg with rfl | hg'
      · rfl
      · exact absurd e (hd.1 g hg' h1 h2)
    · rcases List.mem_cons.1 hg with rfl | hg'
      · exact absurd e.symm (hd.1 f hf' h2 h1)
      · exact ih hd.2 hf' hg'

theorem distinct_zip {fs : List Field} (hd : DistinctNames fs) {vs : List Val} {f g : Field} {v w : Val}
    (hf : (f, v) ∈ fs.zip vs) (hg : (g, w) ∈ fs.zip vs)
    (h1 : f.skip = false) (h2 : g.skip = false) (e : f.jsonName = g.jsonName) : f = g ∧ v = w := by
  unfold DistinctNames at hd
  induction fs generalizing vs with
  | nil => simp at hf
  | cons x xs ih =>
    cases vs with
    | nil => simp at hf
    | cons y ys =>
      rw [List.pairwise_cons] at hd
      simp only [List.zip_cons_cons, List.mem_cons, Prod.mk.injEq] at hf hg
      rcases hf with ⟨rfl, rfl⟩ | hf
      · rcases hg with ⟨rfl, rfl⟩ | hg
        · exact ⟨rfl, rfl⟩
        · exact absurd e (hd.1 g (List.of_mem_zip hg).1 h1 h2)
      · rcases hg with ⟨rfl, rfl⟩ | hg
        · exact absurd e.symm (hd.1 f (List.of_mem_zip hf).1 h2 h1)
        · exact ih hd.2 hf hg

theorem mem_zip_of_get {α β : Type} {as : List α} {bs : List β} {i : Nat} {a : α} {b : β} (ha : as[i]? = some a)
    (hb : bs[i]? = some b) : (a, b) ∈ as.zip bs := by
  refine List.mem_of_getElem? (i := i) ?_
  rw [List.getElem?_zip_eq_some]
  exact ⟨ha, hb⟩

/-- A tree read at the type of a field. -/
theorem means_field {nulls : Field → Bool} {f g : Field} {v w : Val} {J : JTree} (hw : Written nulls f v)
    (hg : g.optProxy = true → f.optSyn = true ∧ nulls f = false ∧ ∃ t, f.ty = .option t)
    (hn : ∀ t, f.ty = .option t → v = .none ∨ J ≠ .null) (h : JsonMeans env' fl g.ty J w) :
    ∃ x, JsonMeans env' fl g.readTy J x ∧ g.wrap x = w := by
  unfold Field.readTy Field.wrap
  generalize g.ty = T at h
  cases hp : g.optProxy with
  | false => exact ⟨w, h, rfl⟩
  | true =>
    cases T with
    | option t =>
      obtain ⟨h1, h2, t', h3⟩ := hg hp
      have hJ : J ≠ .null := by
        rcases hn t' h3 with h | h
        · have := hw.2 h1 h
          rw [h2] at this; cases this
        · exact h
      cases h with
      | none => exact absurd rfl hJ
      | some _ h => exact ⟨_, h, rfl⟩
    | _ => exact ⟨w, h, rfl⟩

/-- What the new program makes of the members. -/
theorem mig_members {nulls : Field → Bool} {cd : Bool} {fs gs : List Field} {vs : List Val} {qs : List (List Char × JTree)}
    (hd : DistinctNames fs) (hd' : DistinctNames gs) (hl : fs.length = vs.length) (hv : FieldsEvo env env' R nulls cd fs gs)
    (h : MembersOf env env' fl R nulls fs vs qs) :
    ∃ (ps : List JMember) (ws : List Val), (ps.map fun p => (JTree.str p.1, p.2.1)) = (qs.map fun q => (JTree.str q.1, q.2)) ∧
      JFieldsGet cd gs ps ws ∧
      (∀ p ∈ ps, ∀ g ∈ gs, g.skip = false → g.jsonName = p.1 → JsonMeans env' fl g.readTy p.2.1 p.2.2) ∧
      FieldsMigrate (fun f g v w => Migrates env env' f.ty g.ty v w) nulls fs gs vs ws := by
  -- the values read for the members
  obtain ⟨ps, hps, hpr⟩ := exists_preimage (g := fun p : JMember => (p.1, p.2.1))
    (Q := fun p => (∀ g ∈ gs, g.skip = false → g.jsonName = p.1 → JsonMeans env' fl g.readTy p.2.1 p.2.2) ∧
      ∀ g ∈ gs, g.skip = false → g.jsonName = p.1 → ∀ f v, (f, v) ∈ fs.zip vs → Written nulls f v → f.jsonName = p.1 →
        Migrates env env' f.ty g.ty v (g.wrap p.2.2)) qs (by
      intro q hq
      obtain ⟨f, v, h1, h2, h3, h4⟩ := h.source q hq
      by_cases hg : ∃ g ∈ gs, g.skip = false ∧ g.jsonName = q.1
      · obtain ⟨g, g1, g2, g3⟩ := hg
        have hk := hv.kept f (List.of_mem_zip h1).1 g g1 h2.1 g2 (by rw [g3, h3])
        obtain ⟨w, w1, w2⟩ := h4.1.2.2 _ hk.1
        obtain ⟨x, x1, x2⟩ := means_field h2 hk.2 h4.2 w1
        refine ⟨(q.1, q.2, x), rfl, ?_, ?_⟩
        · intro g' hg' s' e'
          obtain rfl := distinct_eq hd' hg' g1 s' g2 (by rw [e', g3])
          exact x1
        · intro g' hg' s' e' f' v' hf' hw' ef
          obtain rfl := distinct_eq hd' hg' g1 s' g2 (by rw [e', g3])
          obtain ⟨rfl, rfl⟩ := distinct_zip hd hf' h1 hw'.1 h2.1 (by rw [ef, h3])
          rw [x2]; exact w2
      · exact ⟨(q.1, q.2, .unit), rfl, fun g hg' s e => absurd ⟨g, hg', s, e⟩ hg, fun g hg' s e => absurd ⟨g, hg', s, e⟩ hg⟩)
  have hmem : ∀ p ∈ ps, (p.1, p.2.1) ∈ qs := fun p hp => hps ▸ List.mem_map.2 ⟨p, hp, rfl⟩
  -- the values of the fields
  obtain ⟨gw, hgw, hgr⟩ := exists_preimage (g := fun p : Field × Val => p.1)
    (Q := fun p => p.1 ∈ gs ∧ JFieldGets cd ps p.1 p.2 ∧
      (p.1.skip = false → ∀ f v, (f, v) ∈ fs.zip vs → Written nulls f v → f.jsonName = p.1.jsonName →
        Migrates env env' f.ty p.1.ty v p.2) ∧
      ((p.1.skip = true ∨ ∀ f v, (f, v) ∈ fs.zip vs → Written nulls f v → f.jsonName ≠ p.1.jsonName) → p.2 = p.1.absentValue)) gs (by
      intro g hg
      cases hs : g.skip with
      | true =>
        refine ⟨(g, g.absentValue), rfl, hg, by simp [JFieldGets, hs], by simp [hs], fun _ => rfl⟩
      | false =>
        by_cases hp : ∃ p ∈ ps, p.1 = g.jsonName
        · obtain ⟨a, p, b, h1, h2, h3⟩ := last_named_ev hp
          have hpm : p ∈ ps := by rw [h1]; simp
          refine ⟨(g, g.wrap p.2.2), rfl, hg, ?_, ?_, ?_⟩
          · unfold JFieldGets
            rw [if_neg (by simp [hs])]
            exact .inl ⟨a, p, b, h1, h2, h3, rfl⟩
          · intro _ f v hf hw e
            exact (hpr p hpm).2 g hg hs h2.symm f v hf hw (by rw [e, h2])
          · rintro (hc | hc)
            · rw [hs] at hc; cases hc
            · obtain ⟨f, v, f1, f2, f3, _⟩ := h.source _ (hmem p hpm)
              exact absurd (by rw [← f3, h2]) (hc f v f1 f2)
        · have hno : ∀ f v, (f, v) ∈ fs.zip vs → Written nulls f v → f.jsonName ≠ g.jsonName := by
            intro f v hf hw e
            obtain ⟨q, hq, e'⟩ := h.member f v hf hw
            rw [← hps] at hq
            obtain ⟨p, hp', rfl⟩ := List.mem_map.1 hq
            exact hp ⟨p, hp', by rw [← e]; exact e'⟩
          refine ⟨(g, g.absentValue), rfl, hg, ?_, ?_, fun _ => rfl⟩
          · unfold JFieldGets
            rw [if_neg (by simp [hs])]
            refine .inr ⟨fun q hq e => hp ⟨q, hq, e⟩, ?_, rfl⟩
            rcases hv.added g hg with h' | ⟨f, f1, f2, f3, f4⟩
            · exact h'
            · obtain ⟨i, hi, e⟩ := List.mem_iff_getElem.1 f1
              have hz : (f, vs[i]'(by omega)) ∈ fs.zip vs :=
                mem_zip_of_get (i := i) (by rw [List.getElem?_eq_getElem hi, e]) (by rw [List.getElem?_eq_getElem])
              exact absurd f3 (hno f _ hz ⟨f2, fun a _ => f4 a⟩)
          · intro _ f v hf hw e
            exact absurd e (hno f v hf hw))
  have hz : ∀ g w, (g, w) ∈ gs.zip (gw.map (·.2)) → (g, w) ∈ gw := by
    intro g w hm
    rw [← hgw] at hm
    have : ∀ (l : List (Field × Val)), (g, w) ∈ (l.map (·.1)).zip (l.map (·.2)) → (g, w) ∈ l := by
      intro l
      induction l with
      | nil => simp
      | cons x xs ih =>
        simp only [List.map_cons, List.zip_cons_cons, List.mem_cons]
        rintro (h | h)
        · exact .inl h
        · exact .inr (ih h)
    exact this gw hm
  refine ⟨ps, gw.map (·.2), by rw [← hps]; simp, ⟨?_, by rw [← hgw]; simp, ?_⟩, fun p hp => (hpr p hp).1, by rw [← hgw]; simp, ?_, ?_⟩
  · intro e
    have hr := hv.removed e
    cases ps with
    | nil => rfl
    | cons p ps =>
      obtain ⟨f, v, f1, f2, _⟩ := h.source _ (hmem p (by simp))
      have := hr f (List.of_mem_zip f1).1
      rw [f2.1] at this; cases this
  · intro i g w hg hw
    exact (hgr _ (hz g w (mem_zip_of_get hg hw))).2.1
  · intro g w f v hg hf hs hw e
    exact (hgr _ (hz g w hg)).2.2.1 hs f v hf hw e
  · intro g w hg hc
    exact (hgr _ (hz g w hg)).2.2.2 hc

theorem fieldsTy_length_ev {fs : List Field} {vs : List Val} (h : FieldsTy env fs vs) : fs.length = vs.length := by
  induction fs generalizing vs with
  | nil => cases vs with
    | nil => rfl
    | cons _ _ => simp [FieldsTy] at h
  | cons f fs ih => cases vs with
    | nil => simp [FieldsTy] at h
    | cons v vs =>
      simp only [FieldsTy] at h
      simp [ih h.2]

theorem fieldsTy_zip {fs : List Field} {vs : List Val} (h : FieldsTy env fs vs) {f v} (hm : (f, v) ∈ fs.zip vs) : HasTy env f.ty v := by
  induction fs generalizing vs with
  | nil => simp at hm
  | cons g gs ih => cases vs with
    | nil => simp at hm
    | cons w ws =>
      simp only [FieldsTy] at h
      simp only [List.zip_cons_cons, List.mem_cons, Prod.mk.injEq] at hm
      rcases hm with ⟨rfl, rfl⟩ | hm
      · exact h.1
      · exact ih h.2 hm

/-! ## All types -/

theorem means_vec_of {u b : Ty} (hu : ListOf u b) {tr : Bool} (ps : List (JTree × Val))
    (h : ∀ p ∈ ps, JsonMeans env fl b p.1 p.2) : JsonMeans env fl u (.arr (ps.map (·.1)) tr) (.seq (ps.map (·.2))) := by
  cases hu
  · exact .vec ps h
  · exact .linked ps h

/-- A value for each item. -/
theorem mig_choose {t u : Ty} (hu : TyEvo env env' R t u) (qs : List (Val × JTree))
    (h : ∀ q ∈ qs, JMigAt env env' fl R t q.1 q.2) :
    ∃ rs : List (Val × JTree × Val), rs.map (fun r => (r.1, r.2.1)) = qs ∧
      ∀ r ∈ rs, JsonMeans env' fl u r.2.1 r.2.2 ∧ Migrates env env' t u r.1 r.2.2 :=
  exists_preimage qs fun q hq => by
    obtain ⟨w, h1, h2⟩ := (h q hq).2.2 u hu
    exact ⟨(q.1, q.2, w), rfl, h1, h2⟩

theorem mig_chooseTys (ps : List (Ty × Ty)) (hu : ∀ p ∈ ps, TyEvo env env' R p.1 p.2) (qs : List (Ty × Val × JTree))
    (e : qs.map (·.1) = ps.map (·.1)) (h : ∀ q ∈ qs, JMigAt env env' fl R q.1 q.2.1 q.2.2) :
    ∃ rs : List ((Ty × Ty) × (Val × JTree × Val)), rs.map (·.1) = ps ∧ rs.map (fun r => (r.1.1, r.2.1, r.2.2.1)) = qs ∧
      ∀ r ∈ rs, JsonMeans env' fl r.1.2 r.2.2.1 r.2.2.2 ∧ Migrates env env' r.1.1 r.1.2 r.2.1 r.2.2.2 := by
  induction ps generalizing qs with
  | nil =>
    cases qs with
    | nil => exact ⟨[], rfl, rfl, by simp⟩
    | cons q qs => simp at e
  | cons p ps ih =>
    cases qs with
    | nil => simp at e
    | cons q qs =>
      obtain ⟨a, b⟩ := p
      obtain ⟨a', v, J⟩ := q
      simp only [List.map_cons, List.cons.injEq] at e
      obtain ⟨rfl, e2⟩ := e
      obtain ⟨rs, h1, h2, h3⟩ := ih (fun p hp => hu p (by simp [hp])) qs e2 (fun q hq => h q (by simp [hq]))
      obtain ⟨w, w1, w2⟩ := (h (a', v, J) (List.mem_cons_self ..)).2.2 b (hu (a', b) (List.mem_cons_self ..))
      refine ⟨((a', b), (v, J, w)) :: rs, by simp [h1], by simp [h2], ?_⟩
      intro r hr
      rcases List.mem_cons.1 hr with rfl | hr
      · exact ⟨w1, w2⟩
      · exact h3 r hr

theorem WrittenAsList.unique {t a b : Ty} (h : WrittenAsList t a) (h' : WrittenAsList t b) : a = b := by
  cases h <;> cases h' <;> rfl

theorem lastWins_keys (hk : LawfulKeys env) {es : List Val} (hE : AllEntries es)
    (hd : es.Pairwise fun a b => a.key ≠ b.key) : LastWins es es ∧ es.map Val.key = firsts (es.map Val.key) := by
  have h := lastWins_hfold hk hE
  rw [hmap_fold hk [] es (by simp [AllEntries]) hE hd (by simp)] at h
  exact h

theorem tyWf_struct (hw : ProgWf env) {i : Nat} {fs : List Field} {cd nul : Bool} (hd : env.defs[i]? = some (.struct fs cd nul)) {f} (hf : f ∈ fs) :
    TyWf env f.ty :=
  hw.defs _ (List.mem_of_getElem? hd) _ (List.mem_map.2 ⟨f, hf, rfl⟩)

theorem tyWf_tuple (hw : ProgWf env) {i : Nat} {ts : List Ty} {tr : Bool} (hd : env.defs[i]? = some (.tuple ts tr)) {t} (ht : t ∈ ts) : TyWf env t :=
  hw.defs _ (List.mem_of_getElem? hd) _ ht

theorem tyWf_tupleVar (hw : ProgWf env) {i : Nat} {vars : List Variant} (hd : env.defs[i]? = some (.enum vars)) {var : Variant} {ts : List Ty} (hv : var ∈ vars)
    (hs : var.shape = .tuple ts) {t} (ht : t ∈ ts) : TyWf env t :=
  hw.defs _ (List.mem_of_getElem? hd) _ (List.mem_flatMap.2 ⟨var, hv, by rw [hs]; exact ht⟩)

theorem tyWf_structVar (hw : ProgWf env) {i : Nat} {vars : List Variant} (hd : env.defs[i]? = some (.enum vars)) {var : Variant} {fs : List Field} (hv : var ∈ vars)
    (hs : var.shape = .named fs) {f} (hf : f ∈ fs) : TyWf env f.ty :=
  hw.defs _ (List.mem_of_getElem? hd) _ (List.mem_flatMap.2 ⟨var, hv, by rw [hs]; exact List.mem_map.2 ⟨f, hf, rfl⟩⟩)

theorem jmig (hw : ProgWf env) (hp : Productive env) (hk : LawfulKeys env) (hfl : FloatLaws fl) (hE : JsonEnvOk env)
    (hEx : Extends env env') (hd' : DistinctProg env') (hk' : LawfulKeys env') (hEv : Evolution env env' R) (v : Val) :
    ∀ t, TyWf env t → HasTy env t v → JsonExact env t v → JMig env env' fl R t v := by
  induction v using Val.sizeInd with
  | h v ih =>
  intro t hwf hT hX
  have hH := Holds.head hX
  have mk : ∀ J, Spells fl J (serJson env fl t v) → (JsonMeans env fl t J v → (J = .null ↔ NullForm env t v)) →
      (∀ u, Core env env' R t u → ∃ w, JsonMeans env' fl u J w ∧ Migrates env env' t u v w) → JMig env env' fl R t v := by
    intro J h1 h2 h3
    have hm := means_of_text hw hp hk hfl hE hwf hT (hX.text hfl) h1
    exact ⟨J, h1, migAt_of hEx hm (h2 hm) h3⟩
  have hseqlt : ∀ vs : List Val, v = .seq vs → ∀ w ∈ vs, sizeOf w < sizeOf v := by
    intro vs e w hw; subst e; have := Val.sizeOf_mem hw; simp; omega
  have hseq : ∀ (t : Ty) (vs : List Val), TyWf env t → v = .seq vs → AllTy env t vs →
      HoldsAll env (JsonNodeOk env) Field.absent false t vs → ∀ v ∈ vs, JMig env env' fl R t v := by
    intro t vs hwf e h1 h2 w hw
    exact ih w (hseqlt vs e w hw) t hwf (AllTy_iff.1 h1 w hw) (HoldsAll_iff.1 h2 w hw)
  have htys : ∀ (ts : List Ty) (vs : List Val), (∀ t ∈ ts, TyWf env t) → (∀ w ∈ vs, sizeOf w < sizeOf v) → TysTy env ts vs →
      HoldsTys env (JsonNodeOk env) Field.absent false ts vs → ∀ p ∈ ts.zip vs, JMig env env' fl R p.1 p.2 := by
    intro ts vs hwf hs h1 h2 p hp
    have := tys_of_zip h1 h2 p hp
    exact ih p.2 (hs _ (List.of_mem_zip hp).2) p.1 (hwf _ (List.of_mem_zip hp).1) this.1 this.2
  -- arrays of items
  have hlist : ∀ (a : Ty) (vs : List Val), v = .seq vs → WrittenAsList t a → TyWf env a → AllTy env a vs →
      HoldsAll env (JsonNodeOk env) Field.absent false a vs →
      serJson env fl t v = '[' :: (joinSep [','] (serJsonAll env fl a vs) ++ [']']) →
      (∀ (qs : List (Val × JTree)), qs.map (·.1) = vs → (∀ q ∈ qs, JMigAt env env' fl R a q.1 q.2) →
        ∀ u, Core env env' R t u → (∀ b, ¬ ListOf u b) →
        ∃ w, JsonMeans env' fl u (.arr (qs.map (·.2)) false) w ∧ Migrates env env' t u v w) → JMig env env' fl R t v := by
    intro a vs e hl hwa h1 h2 hser hother
    obtain ⟨qs, q1, ⟨q2, q3⟩, q4⟩ := mig_items vs (hseq a vs hwa e h1 h2)
    refine mk (.arr (qs.map (·.2)) false) (by rw [hser]; exact Spells.arr (.inl rfl) q2 q3) (fun _ => ?_) ?_
    · constructor
      · intro h; cases h
      · intro h; cases hl <;> cases h
    · intro u hc
      by_cases hu : ∃ b, ListOf u b
      · obtain ⟨b, hb⟩ := hu
        have key : ∃ b, ListOf u b ∧ TyEvo env env' R a b := by
          cases hc with
          | list x y z => have := hl.unique x; subst this; exact ⟨_, y, z⟩
          | array => cases hb
          | _ => cases hl
        obtain ⟨b, hb, hab⟩ := key
        obtain ⟨rs, r1, r2⟩ := mig_choose hab qs q4
        refine ⟨.seq (rs.map (·.2.2)), ?_, ?_⟩
        · have := means_vec_of (env := env') (fl := fl) hb (tr := false) (rs.map fun r => (r.2.1, r.2.2)) (by
            intro p hp
            obtain ⟨r, hr, rfl⟩ := List.mem_map.1 hp
            exact (r2 r hr).1)
          rw [← r1]
          simpa [List.map_map, Function.comp_def] using this
        · have := Migrates.list (env := env) (env' := env') (rs.map fun r => (r.1, r.2.2)) hl hb (by
            intro p hp
            obtain ⟨r, hr, rfl⟩ := List.mem_map.1 hp
            exact (r2 r hr).2)
          rw [e, ← q1, ← r1]
          simpa [List.map_map, Function.comp_def] using this
      · exact hother qs q1 q4 u hc fun b hb => hu ⟨b, hb⟩
  -- tuples
  have htup : ∀ (ts : List Ty) (vs : List Val), v = .seq vs → (∀ t ∈ ts, TyWf env t) → TysTy env ts vs →
      HoldsTys env (JsonNodeOk env) Field.absent false ts vs →
      serJson env fl t v = '[' :: (joinSep [','] (serJsonTys env fl ts vs) ++ [']']) → ¬ NullForm env t v →
      (∀ u, Core env env' R t u → ∃ ps : List (Ty × Ty), ps.map (·.1) = ts ∧ (∀ p ∈ ps, TyEvo env env' R p.1 p.2) ∧
        ∀ rs : List ((Ty × Ty) × (Val × JTree × Val)), rs.map (·.1) = ps → rs.map (·.2.1) = vs →
          (∀ r ∈ rs, JsonMeans env' fl r.1.2 r.2.2.1 r.2.2.2 ∧ Migrates env env' r.1.1 r.1.2 r.2.1 r.2.2.2) →
          ∃ w, JsonMeans env' fl u (.arr (rs.map (·.2.2.1)) false) w ∧ Migrates env env' t u v w) →
      JMig env env' fl R t v := by
    intro ts vs e hwf h1 h2 hser hnn hc
    obtain ⟨qs, q1, q1', ⟨q2, q3⟩, q4⟩ := mig_tys ts vs h1 (htys ts vs hwf (hseqlt vs e) h1 h2)
    refine mk (.arr (qs.map (·.2.2)) false) (by rw [hser]; exact Spells.arr (.inl rfl) q2 q3)
      (fun _ => ⟨fun h => by (cases h), fun h => absurd h hnn⟩) fun u hu => ?_
    obtain ⟨ps, p1, p2, p3⟩ := hc u hu
    obtain ⟨rs, r1, r2, r3⟩ := mig_chooseTys ps p2 qs (by rw [q1, p1]) q4
    have := p3 rs r1 (by rw [← q1', ← r2]; simp) r3
    rw [← r2]
    simpa [List.map_map, Function.comp_def] using this
  -- maps
  have hmaps : ∀ (k t' : Ty) (vs : List Val), v = .seq vs → TyWf env k → TyWf env t' → EntriesTy env k t' vs →
      HoldsEntries env (JsonNodeOk env) Field.absent false k t' vs → vs.Pairwise (fun a b => a.key ≠ b.key) →
      serJson env fl t v = '{' :: (joinSep [','] (serJsonEntries env fl k t' vs) ++ ['}']) → ¬ NullForm env t v →
      (∀ u, Core env env' R t u → ∃ b, TyEvo env env' R t' b ∧
        ∀ rs : List ((Val × JTree) × (Val × JTree × Val)), (rs.map fun r => Val.entry r.1.1 r.2.1) = vs →
          (rs.map fun r => Val.entry r.1.1 r.2.2.2).Pairwise (fun a b => a.key ≠ b.key) →
          (∀ r ∈ rs, JsonMeans env' fl k r.1.2 r.1.1 ∧ JsonMeans env' fl b r.2.2.1 r.2.2.2 ∧ Migrates env env' t' b r.2.1 r.2.2.2) →
          ∃ w, JsonMeans env' fl u (.obj (rs.map fun r => (r.1.2, r.2.2.1)) false) w ∧ Migrates env env' t u v w) →
      JMig env env' fl R t v := by
    intro k t' vs e hwk hwt hT' hH' hd hser hnn hc
    have hr : ∀ w ∈ vs, ∃ a b, w = .entry a b ∧ JMig env env' fl R k a ∧ JMig env env' fl R t' b := by
      have hlt := hseqlt vs e
      clear hser hseq e hc hd
      induction vs with
      | nil => simp
      | cons w ws ihw =>
        cases w with
        | entry a b =>
          simp only [EntriesTy] at hT'
          simp only [HoldsEntries] at hH'
          intro w hw
          rcases List.mem_cons.1 hw with rfl | hw
          · have := hlt (.entry a b) (by simp)
            simp only [Val.entry.sizeOf_spec] at this
            exact ⟨a, b, rfl, ih a (by omega) _ hwk hT'.1 hH'.1, ih b (by omega) _ hwt hT'.2.1 hH'.2.1⟩
          · exact ihw hT'.2.2 hH'.2.2 (fun w hw => hlt w (by simp [hw])) w hw
        | _ => simp [EntriesTy] at hT'
    obtain ⟨qs, q1, ⟨q2, q3⟩, q4⟩ := mig_entries vs hr
    refine mk (.obj (qs.map fun q => (q.1.2, q.2.2)) false) (by rw [hser]; exact Spells.obj q2 q3)
      (fun _ => ⟨fun h => by (cases h), fun h => absurd h hnn⟩) fun u hu => ?_
    obtain ⟨b, hb, hfin⟩ := hc u hu
    obtain ⟨rs, r1, r2⟩ := exists_preimage (g := fun r : (Val × JTree) × (Val × JTree × Val) => (r.1, (r.2.1, r.2.2.1)))
      (Q := fun r => JsonMeans env' fl k r.1.2 r.1.1 ∧ JsonMeans env' fl b r.2.2.1 r.2.2.2 ∧ Migrates env env' t' b r.2.1 r.2.2.2) qs
      (by
        intro q hq
        obtain ⟨w, w1, w2⟩ := (q4 q hq).2.2.2 b hb
        exact ⟨(q.1, (q.2.1, q.2.2, w)), rfl, (q4 q hq).1.1.extend hEx, w1, w2⟩)
    have := hfin rs (by rw [← q1, ← r1]; simp [List.map_map, Function.comp_def]) (by
      rw [← q1, ← r1] at hd
      simp only [List.map_map, List.pairwise_map, Function.comp_def, Val.key] at hd ⊢
      exact hd) r2
    rw [← r1]
    simpa [List.map_map, Function.comp_def] using this
  cases t with
  | unit =>
    cases v <;> simp [HasTy] at hT
    refine mk .null ?_ (fun _ => ⟨fun _ => .unit, fun _ => rfl⟩) fun u hu => ?_
    · unfold Spells; rw [JTree.lexemes, serJson]; exact .single .null
    · cases hu with | list h => cases h
  | bool =>
    obtain ⟨J, h1, _⟩ := jround hk hfl hE v _ hT (hX.text hfl)
    refine mk J h1 (fun hm => ⟨?_, fun h => by cases h⟩) fun u hu => ?_
    · rintro rfl; cases hm
    · cases hu with | list h => cases h
  | int k =>
    cases v <;> simp [HasTy] at hT
    rename_i i
    have hkt := hH.1 k rfl
    have hb := inRange_text hkt hT
    refine mk (.num (intNum i)) ?_ (fun _ => ⟨(fun h => by (cases h)), fun h => by cases h⟩) fun u hu => ?_
    · unfold Spells
      rw [JTree.lexemes, serJson]
      exact .single (.num (showInt_lit hb.1 hb.2))
    · cases hu with
      | list h => cases h
      | @widen _ l a b c =>
        refine ⟨.int i, ?_, .widen⟩
        have hr := c i hT
        refine .int b ?_ hr ?_
        · unfold intNum; split <;> simp [Num.intVal] <;> omega
        · intro hs
          have : 0 ≤ i := by
            have := hr.1
            simp only [IntKind.lo, hs] at this
            simpa using this
          exact ⟨i.toNat, by unfold intNum; rw [if_neg (by omega)]⟩
  | f32 =>
    obtain ⟨J, h1, _⟩ := jround hk hfl hE v _ hT (hX.text hfl)
    refine mk J h1 (fun hm => ⟨?_, fun h => by cases h⟩) fun u hu => ?_
    · rintro rfl; cases hm
    · cases hu with | list h => cases h
  | f64 =>
    obtain ⟨J, h1, _⟩ := jround hk hfl hE v _ hT (hX.text hfl)
    refine mk J h1 (fun hm => ⟨?_, fun h => by cases h⟩) fun u hu => ?_
    · rintro rfl; cases hm
    · cases hu with | list h => cases h
  | str =>
    obtain ⟨J, h1, _⟩ := jround hk hfl hE v _ hT (hX.text hfl)
    refine mk J h1 (fun hm => ⟨?_, fun h => by cases h⟩) fun u hu => ?_
    · rintro rfl; cases hm
    · cases hu with | list h => cases h
  | dur =>
    obtain ⟨J, h1, _⟩ := jround hk hfl hE v _ hT (hX.text hfl)
    refine mk J h1 (fun hm => ⟨?_, fun h => by cases h⟩) fun u hu => ?_
    · rintro rfl; cases hm
    · cases hu with | list h => cases h
  | time =>
    cases v <;> simp only [HasTy] at hT
    rename_i s ns
    have h0 : 0 ≤ s := hH.2.2.2.1 s ns rfl
    obtain ⟨J, hJ, h1, _⟩ := dur_round (fl := fl) (s := s.toNat) (n := ns) (by unfold u64Max; omega) hT.2.2
    refine mk J (by rw [serJson, if_pos h0]; exact h1) (fun _ => ⟨fun h => absurd h hJ.1, fun h => ?_⟩) fun u hu => ?_
    · cases h with | past h => exfalso; omega
    · cases hu with | list h => cases h
  | option t =>
    cases v <;> simp only [HasTy] at hT
    · refine mk .null ?_ (fun _ => ⟨fun _ => .none, fun _ => rfl⟩) fun u hu => ?_
      · unfold Spells; rw [JTree.lexemes, serJson]; exact .single .null
      · cases hu with
        | list h => cases h
        | option h => exact ⟨.none, .none, .none⟩
    · rename_i w
      simp only [JsonExact, Holds] at hX
      obtain ⟨J, h1, h2⟩ := ih w (by simp) t hwf hT hX.2
      have hJ : J ≠ .null := fun h => hH.2.2.2.2 t w rfl rfl (h2.2.1.1 h)
      refine mk J (by rw [serJson]; exact h1) (fun _ => ⟨fun h => absurd h hJ, fun h => ?_⟩) fun u hu => ?_
      · cases h with | some h => exact absurd (h2.2.1.2 h) hJ
      · cases hu with
        | list h => cases h
        | option h =>
          obtain ⟨x, x1, x2⟩ := h2.2.2 _ h
          exact ⟨.some x, .some hJ x1, .some x2⟩
  | vec t =>
    cases v <;> simp only [HasTy] at hT
    simp only [JsonExact, Holds] at hX
    refine hlist t _ rfl .vec hwf hT.1 hX.2 (by simp [serJson]) ?_
    intro qs _ _ u hc hn
    cases hc with | list a b => exact absurd b (hn _)
  | linked t =>
    cases v <;> simp only [HasTy] at hT
    simp only [JsonExact, Holds] at hX
    refine hlist t _ rfl .linked hwf hT.1 hX.2 (by simp [serJson]) ?_
    intro qs _ _ u hc hn
    cases hc with | list a b => exact absurd b (hn _)
  | hset t =>
    cases v <;> simp only [HasTy] at hT
    simp only [JsonExact, Holds] at hX
    refine hlist t _ rfl .hset hwf hT.1 hX.2 (by simp [serJson]) ?_
    intro qs _ _ u hc hn
    cases hc with | list a b => exact absurd b (hn _)
  | bset t =>
    cases v <;> simp only [HasTy] at hT
    simp only [JsonExact, Holds] at hX
    refine hlist t _ rfl .bset hwf hT.1 hX.2 (by simp [serJson]) ?_
    intro qs _ _ u hc hn
    cases hc with | list a b => exact absurd b (hn _)
  | array t len =>
    cases v <;> simp only [HasTy] at hT
    rename_i vs
    simp only [JsonExact, Holds] at hX
    refine hlist t _ rfl .array hwf hT.1 hX.2 (by simp [serJson]) ?_
    intro qs q1 q2 u hc hn
    cases hc with
    | list a b => exact absurd b (hn _)
    | array hu =>
      obtain ⟨rs, r1, r2⟩ := mig_choose hu qs q2
      refine ⟨.seq (rs.map (·.2.2)), ?_, ?_⟩
      · have := JsonMeans.array (env := env') (fl := fl) (n := len) (tr := false) (rs.map fun r => (r.2.1, r.2.2))
          (by
            have := hT.2
            rw [← q1, ← r1] at this
            simpa using this) (by
          intro p hp
          obtain ⟨r, hr, rfl⟩ := List.mem_map.1 hp
          exact (r2 r hr).1)
        rw [← r1]
        simpa [List.map_map, Function.comp_def] using this
      · have := Migrates.array (env := env) (env' := env') (n := len) (rs.map fun r => (r.1, r.2.2)) (by
          intro p hp
          obtain ⟨r, hr, rfl⟩ := List.mem_map.1 hp
          exact (r2 r hr).2)
        rw [← q1, ← r1]
        simpa [List.map_map, Function.comp_def] using this
  | pair a b =>
    cases v <;> simp only [HasTy] at hT
    simp only [JsonExact, Holds] at hX
    refine htup [a, b] _ rfl (by simpa [TyWf] using hwf) hT hX.2 (by simp [serJson]) (by intro h; cases h) fun u hu => ?_
    cases hu with
    | list h => cases h
    | @pair _ _ a' b' h1 h2 =>
      refine ⟨[(a, a'), (b, b')], rfl, by simp [h1, h2], ?_⟩
      intro rs e1 e2 hr
      match rs, e1 with
      | [((_, _), v1, J1, w1), ((_, _), v2, J2, w2)], e1 =>
        simp only [List.map_cons, List.map_nil, List.cons.injEq, Prod.mk.injEq, and_true] at e1 e2
        obtain ⟨⟨rfl, rfl⟩, rfl, rfl⟩ := e1
        subst e2
        obtain ⟨g1, hr1⟩ := List.forall_mem_cons.1 hr
        obtain ⟨g2, hr2⟩ := List.forall_mem_cons.1 hr1
        exact ⟨.seq [w1, w2], .pair [(_, J1, w1), (_, J2, w2)] rfl
          (List.forall_mem_cons.2 ⟨g1.1, (List.forall_mem_cons.2 ⟨g2.1, (by simp)⟩)⟩), .pair g1.2 g2.2⟩
  | triple a b c =>
    cases v <;> simp only [HasTy] at hT
    simp only [JsonExact, Holds] at hX
    refine htup [a, b, c] _ rfl (by simpa [TyWf] using hwf) hT hX.2 (by simp [serJson]) (by intro h; cases h) fun u hu => ?_
    cases hu with
    | list h => cases h
    | @triple _ _ _ a' b' c' h1 h2 h3 =>
      refine ⟨[(a, a'), (b, b'), (c, c')], rfl, by simp [h1, h2, h3], ?_⟩
      intro rs e1 e2 hr
      match rs, e1 with
      | [((_, _), v1, J1, w1), ((_, _), v2, J2, w2), ((_, _), v3, J3, w3)], e1 =>
        simp only [List.map_cons, List.map_nil, List.cons.injEq, Prod.mk.injEq, and_true] at e1 e2
        obtain ⟨⟨rfl, rfl⟩, ⟨rfl, rfl⟩, rfl, rfl⟩ := e1
        subst e2
        obtain ⟨g1, hr1⟩ := List.forall_mem_cons.1 hr
        obtain ⟨g2, hr2⟩ := List.forall_mem_cons.1 hr1
        obtain ⟨g3, hr3⟩ := List.forall_mem_cons.1 hr2
        exact ⟨.seq [w1, w2, w3], .triple [(_, J1, w1), (_, J2, w2), (_, J3, w3)] rfl
          (List.forall_mem_cons.2 ⟨g1.1, (List.forall_mem_cons.2 ⟨g2.1, (List.forall_mem_cons.2 ⟨g3.1, (by simp)⟩)⟩)⟩), .triple g1.2 g2.2 g3.2⟩
  | quad a b c d =>
    cases v <;> simp only [HasTy] at hT
    simp only [JsonExact, Holds] at hX
    refine htup [a, b, c, d] _ rfl (by simpa [TyWf] using hwf) hT hX.2 (by simp [serJson]) (by intro h; cases h) fun u hu => ?_
    cases hu with
    | list h => cases h
    | @quad _ _ _ _ a' b' c' d' h1 h2 h3 h4 =>
      refine ⟨[(a, a'), (b, b'), (c, c'), (d, d')], rfl, by simp [h1, h2, h3, h4], ?_⟩
      intro rs e1 e2 hr
      match rs, e1 with
      | [((_, _), v1, J1, w1), ((_, _), v2, J2, w2), ((_, _), v3, J3, w3), ((_, _), v4, J4, w4)], e1 =>
        simp only [List.map_cons, List.map_nil, List.cons.injEq, Prod.mk.injEq, and_true] at e1 e2
        obtain ⟨⟨rfl, rfl⟩, ⟨rfl, rfl⟩, ⟨rfl, rfl⟩, rfl, rfl⟩ := e1
        subst e2
        obtain ⟨g1, hr1⟩ := List.forall_mem_cons.1 hr
        obtain ⟨g2, hr2⟩ := List.forall_mem_cons.1 hr1
        obtain ⟨g3, hr3⟩ := List.forall_mem_cons.1 hr2
        obtain ⟨g4, hr4⟩ := List.forall_mem_cons.1 hr3
        exact ⟨.seq [w1, w2, w3, w4], .quad [(_, J1, w1), (_, J2, w2), (_, J3, w3), (_, J4, w4)] rfl
          (List.forall_mem_cons.2 ⟨g1.1, (List.forall_mem_cons.2 ⟨g2.1, (List.forall_mem_cons.2 ⟨g3.1, (List.forall_mem_cons.2 ⟨g4.1, (by simp)⟩)⟩)⟩)⟩), .quad g1.2 g2.2 g3.2 g4.2⟩
  | hmap k t =>
    cases v <;> simp only [HasTy] at hT
    simp only [JsonExact, Holds] at hX
    refine hmaps k t _ rfl hwf.1 hwf.2 hT.1 hX.2 hT.2.2.2 (by simp [serJson]) (by intro h; cases h) fun u hu => ?_
    cases hu with
    | list h => cases h
    | @hmap _ _ b hb =>
      refine ⟨b, hb, fun rs e hd hr => ⟨.seq (rs.map fun r => Val.entry r.1.1 r.2.2.2), ?_, ?_⟩⟩
      · have hA : AllEntries (rs.map fun r => Val.entry r.1.1 r.2.2.2) := allEntries_map rs (fun r => r.1.1) (fun r => r.2.2.2)
        have hl := lastWins_keys hk' hA hd
        have := JsonMeans.hmap (env := env') (fl := fl) (k := k) (t := b) (tr := false)
          (rs.map fun r => ((r.1.2, r.1.1), (r.2.2.1, r.2.2.2))) (r := rs.map fun r => Val.entry r.1.1 r.2.2.2)
          (by intro p hp; obtain ⟨r, hr', rfl⟩ := List.mem_map.1 hp; exact (hr r hr').1)
          (by intro p hp; obtain ⟨r, hr', rfl⟩ := List.mem_map.1 hp; exact (hr r hr').2.1)
          (by simpa [List.map_map, Function.comp_def] using hl.1)
          (by simpa [List.map_map, Function.comp_def, Val.key] using hl.2)
        simpa [List.map_map, Function.comp_def] using this
      · rw [← e]
        have := Migrates.hmap (env := env) (env' := env') (k := k) (rs.map fun r => (r.1.1, r.2.1, r.2.2.2))
          (by intro p hp; obtain ⟨r, hr', rfl⟩ := List.mem_map.1 hp; exact (hr r hr').2.2)
        simpa [List.map_map, Function.comp_def] using this
  | bmap k t =>
    cases v <;> simp only [HasTy] at hT
    simp only [JsonExact, Holds] at hX
    have hne : ∀ {vs : List Val}, vs.Pairwise (fun a b => env.cmp a.key b.key = .lt) → vs.Pairwise (fun a b => a.key ≠ b.key) :=
      fun h => h.imp fun h e => by rw [e, (hk.eq_iff _ _).2 rfl] at h; cases h
    refine hmaps k t _ rfl hwf.1 hwf.2 hT.1 hX.2 (hne hT.2.2) (by simp [serJson]) (by intro h; cases h) fun u hu => ?_
    cases hu with
    | list h => cases h
    | @bmap _ _ b hb =>
      refine ⟨b, hb, fun rs e hd hr => ⟨.seq (rs.map fun r => Val.entry r.1.1 r.2.2.2), ?_, ?_⟩⟩
      · have hA : AllEntries (rs.map fun r => Val.entry r.1.1 r.2.2.2) := allEntries_map rs (fun r => r.1.1) (fun r => r.2.2.2)
        have hl := lastWins_keys hk' hA hd
        have := JsonMeans.bmap (env := env') (fl := fl) (k := k) (t := b) (tr := false)
          (rs.map fun r => ((r.1.2, r.1.1), (r.2.2.1, r.2.2.2))) (r := rs.map fun r => Val.entry r.1.1 r.2.2.2)
          (by intro p hp; obtain ⟨r, hr', rfl⟩ := List.mem_map.1 hp; exact (hr r hr').1)
          (by intro p hp; obtain ⟨r, hr', rfl⟩ := List.mem_map.1 hp; exact (hr r hr').2.1)
          (by simpa [List.map_map, Function.comp_def] using hl.1)
          (by
            have := hT.2.2
            rw [← e] at this
            rw [hEx.cmp]
            simp only [List.pairwise_map, Val.key] at this ⊢
            exact this)
        simpa [List.map_map, Function.comp_def] using this
      · rw [← e]
        have := Migrates.bmap (env := env) (env' := env') (k := k) (rs.map fun r => (r.1.1, r.2.1, r.2.2.2))
          (by intro p hp; obtain ⟨r, hr', rfl⟩ := List.mem_map.1 hp; exact (hr r hr').2.2)
        simpa [List.map_map, Function.comp_def] using this
  | box t =>
    cases v <;> simp only [HasTy] at hT
    rename_i w
    simp only [JsonExact, Holds] at hX
    obtain ⟨J, h1, h2⟩ := ih w (by simp) t hwf hT hX.2
    refine mk J (by rw [serJson]; exact h1) (fun _ => ⟨fun h => .box (h2.2.1.1 h), fun h => ?_⟩) fun u hu => ?_
    · cases h with | box h => exact h2.2.1.2 h
    · cases hu with
      | list h => cases h
      | unboxed h =>
        obtain ⟨x, x1, x2⟩ := h2.2.2 _ h
        exact ⟨x, x1, .unboxed x2⟩
  | proxied i =>
    cases v <;> simp only [HasTy] at hT
    rename_i o p
    simp only [JsonExact, Holds] at hX
    cases hpx : env.proxies[i]? with
    | none => rw [hpx] at hT; exact absurd hT id
    | some px =>
      rw [hpx] at hT hX
      simp only at hT hX
      obtain ⟨J, h1, h2⟩ := ih p (by simp; omega) px.ty (hw.proxies _ (List.mem_of_getElem? hpx)) hT.1 hX.2
      refine mk J (by rw [serJson, hpx]; exact h1) (fun _ => ⟨fun h => .proxied hpx (h2.2.1.1 h), fun h => ?_⟩) fun u hu => ?_
      · cases h with
        | proxied a h =>
          rw [hpx] at a
          injection a with a
          subst a
          exact h2.2.1.2 h
      · cases hu with | list h => cases h
  | named i =>
    cases v <;> simp only [HasTy] at hT
    · -- structs
      rename_i vs
      have hlt : ∀ w ∈ vs, sizeOf w < sizeOf (Val.struct vs) := by
        intro w hw; have := Val.sizeOf_mem hw; simp; omega
      simp only [JsonExact, Holds] at hX
      cases hdf : env.defs[i]? with
      | none => rw [hdf] at hT; exact absurd hT id
      | some d =>
        rw [hdf] at hT hX
        have hdo := hE i d hdf
        cases d with
        | enum vars => exact absurd hT id
        | struct fs cd nul =>
          simp only at hT hX
          obtain ⟨qs, ⟨q1, q2⟩, q3⟩ := mig_fields (env' := env') (fl := fl) (R := R) (nul := nul) fs vs hT hX.2
            (fun f w hm _ hx => ih w (hlt w (List.of_mem_zip hm).2) f.ty (tyWf_struct hw hdf (List.of_mem_zip hm).1)
              (fieldsTy_zip hT hm) hx) hdo.plain
          refine mk (.obj (qs.map fun q => (JTree.str q.1, q.2)) false)
            (by rw [serJson, hdf]; exact Spells.obj q1 q2) (fun _ => ⟨fun h => by (cases h), fun h => ?_⟩) fun u hu => ?_
          · cases h with | transparent a => rw [hdf] at a; cases a
          · cases hu with
            | list h => cases h
            | unwrap a => rw [hdf] at a; cases a
            | @named _ j hR =>
              obtain ⟨d, e, hd, he, hde⟩ := hEv i j hR
              rw [hdf] at hd
              injection hd with hd
              subst hd
              cases hde with
              | @struct _ gs _ cd' _ nul' hv =>
                obtain ⟨ps, ws, p1, p2, p3, p4⟩ := mig_members (hE.distinctProg.fields i fs cd nul hdf)
                  (hd'.fields j gs cd' nul' he) (fieldsTy_length_ev hT) hv q3
                refine ⟨.struct ws, ?_, .struct _ hdf he p4 fun _ _ _ _ h => h⟩
                rw [← p1]
                exact .struct ps he p2 p3
        | tuple ts tr =>
          simp only at hT hX
          obtain ⟨qs, q1, q1', ⟨q2, q3⟩, q4⟩ := mig_tys (env' := env') (fl := fl) (R := R) ts vs hT
            (htys ts vs (fun t ht => tyWf_tuple hw hdf ht) hlt hT hX.2)
          -- the new definition
          have hnew : ∀ u, Core env env' R (.named i) u → (∃ t, ts = [t] ∧ tr = true ∧ TyEvo env env' R t u) ∨
              ∃ (j : Nat) (ps : List (Ty × Ty)), u = .named j ∧ ps.map (·.1) = ts ∧ env'.defs[j]? = some (.tuple (ps.map (·.2)) tr) ∧
                ∀ p ∈ ps, TyEvo env env' R p.1 p.2 := by
            intro u hu
            cases hu with
            | list h => cases h
            | unwrap a h =>
              rw [hdf] at a
              injection a with a; injection a with a b
              exact .inl ⟨_, a, b, h⟩
            | @named _ j hR =>
              obtain ⟨d, e, hd, he, hde⟩ := hEv i j hR
              rw [hdf] at hd
              injection hd with hd
              subst hd
              generalize hD : Def.tuple ts tr = D at hde
              cases hde with
              | struct => cases hD
              | enum => cases hD
              | tuple ps h =>
                injection hD with hD1 hD2
                subst hD2
                exact .inr ⟨j, ps, rfl, hD1.symm, he, h⟩
          have hmigr : ∀ (j : Nat) (rs : List ((Ty × Ty) × (Val × JTree × Val))), (rs.map fun r => r.1.1) = ts →
              env'.defs[j]? = some (.tuple (rs.map fun r => r.1.2) tr) → (rs.map fun r => r.2.1) = vs →
              (∀ r ∈ rs, Migrates env env' r.1.1 r.1.2 r.2.1 r.2.2.2) →
              Migrates env env' (.named i) (.named j) (.struct vs) (.struct (rs.map fun r => r.2.2.2)) := by
            intro j rs e1 e2 e3 e4
            have := Migrates.tuple (env := env) (env' := env') (i := i) (j := j) (tr := tr) (rs.map fun r => (r.1, (r.2.1, r.2.2.2)))
              (by rw [hdf, ← e1]; simp [List.map_map, Function.comp_def])
              (by rw [e2]; simp [List.map_map, Function.comp_def])
              (by intro p hp; obtain ⟨r, hr, rfl⟩ := List.mem_map.1 hp; exact e4 r hr)
            rw [← e3]
            simpa [List.map_map, Function.comp_def] using this
          cases ts with
          | nil =>
            cases vs with
            | cons v vs => simp [TysTy] at hT
            | nil =>
              refine mk (.obj [] false) ?_ (fun _ => ⟨fun h => by (cases h), fun h => by cases h⟩) fun u hu => ?_
              · rw [serJson, hdf]
                simp only [List.isEmpty_nil, if_true]
                exact Spells.obj (ms := []) (txts := []) rfl (by simp)
              · rcases hnew u hu with ⟨t, e, _⟩ | ⟨j, ps, rfl, e, he, _⟩
                · cases e
                · obtain rfl : ps = [] := List.map_eq_nil_iff.1 e
                  exact ⟨.struct [], .noFields he, hmigr j [] rfl he rfl (by simp)⟩
          | cons t ts =>
            by_cases htr : tr = true ∧ (t :: ts).length = 1
            · obtain ⟨rfl, hl⟩ := htr
              obtain rfl : ts = [] := by simpa using hl
              obtain ⟨w, rfl⟩ : ∃ w, vs = [w] := by
                match vs, hT with
                | [w], _ => exact ⟨w, rfl⟩
                | [], hT => simp [TysTy] at hT
                | _ :: _ :: _, hT => simp [TysTy] at hT
              simp only [TysTy] at hT
              simp only [HoldsTys] at hX
              obtain ⟨J, h1, h2⟩ := ih w (hlt w (by simp)) t (tyWf_tuple hw hdf (by simp)) hT.1 hX.2.1
              have e : serJson env fl (.named i) (.struct [w]) = serJson env fl t w := by
                rw [serJson, hdf]; simp [serJsonTys, joinSep]
              refine mk J (by rw [e]; exact h1) (fun _ => ⟨fun h => .transparent hdf (h2.2.1.1 h), fun h => ?_⟩) fun u hu => ?_
              · cases h with
                | transparent a h =>
                  rw [hdf] at a
                  injection a with a; injection a with a; injection a with a
                  subst a
                  exact h2.2.1.2 h
              · rcases hnew u hu with ⟨t', e', _, hu⟩ | ⟨j, ps, rfl, e', he, hps⟩
                · injection e' with e'
                  subst e'
                  obtain ⟨x, x1, x2⟩ := h2.2.2 u hu
                  exact ⟨x, x1, .unwrap hdf x2⟩
                · match ps, e' with
                  | [(t', u')], e' =>
                    simp only [List.map_cons, List.map_nil, List.cons.injEq, and_true] at e'
                    subst e'
                    obtain ⟨x, x1, x2⟩ := h2.2.2 u' (hps (t', u') (by simp))
                    exact ⟨.struct [x], .transparent he x1, hmigr j [((t', u'), (w, J, x))] rfl he rfl (by simpa using x2)⟩
            · have e : serJson env fl (.named i) (.struct vs) =
                  '[' :: (joinSep [',', ' '] (serJsonTys env fl (t :: ts) vs) ++ [']']) := by
                rw [serJson, hdf]
                simp only [List.isEmpty_cons]
                rw [if_neg (by simp), if_neg htr]
              refine mk (.arr (qs.map (·.2.2)) false) (by rw [e]; exact Spells.arr (.inr rfl) q2 q3)
                (fun _ => ⟨fun h => by (cases h), fun h => ?_⟩) fun u hu => ?_
              · cases h with
                | transparent a h =>
                  rw [hdf] at a
                  injection a with a; injection a with a b
                  exact absurd ⟨b, by rw [a]; rfl⟩ htr
              · rcases hnew u hu with ⟨t', e', e'', _⟩ | ⟨j, ps, rfl, e', he, hps⟩
                · exact absurd ⟨e'', by rw [e']; rfl⟩ htr
                · obtain ⟨rs, r1, r2, r3⟩ := mig_chooseTys ps hps qs (by rw [q1, e']) q4
                  have he2 : env'.defs[j]? = some (.tuple (rs.map fun r => r.1.2) tr) := by
                    rw [he, ← r1]; simp [List.map_map, Function.comp_def]
                  refine ⟨.struct (rs.map fun r => r.2.2.2), ?_, hmigr j rs ?_ he2 ?_ fun r hr => (r3 r hr).2⟩
                  · rw [← r2]
                    cases ts with
                    | nil =>
                      obtain rfl : tr = false := by simpa using htr
                      match rs, r1, he2, r3 with
                      | [((a, b), (x, J, y))], r1, he2, r3 =>
                        exact .newtype he2 (r3 _ (List.mem_cons_self ..)).1
                      | [], r1, _, _ => rw [← r1] at e'; simp at e'
                      | _ :: _ :: _, r1, _, _ => rw [← r1] at e'; simp at e'
                    | cons t' ts =>
                      have := JsonMeans.tupleStruct (env := env') (fl := fl) (tr := false) (rs.map fun r => (r.1.2, r.2.2.1, r.2.2.2))
                        (i := j) (trans := tr) (by rw [he2]; simp [List.map_map, Function.comp_def])
                        (by
                          have := congrArg List.length e'
                          rw [← r1] at this
                          simp at this ⊢
                          omega)
                        (by intro p hp; obtain ⟨r, hr, rfl⟩ := List.mem_map.1 hp; exact (r3 r hr).1)
                      simpa [List.map_map, Function.comp_def] using this
                  · rw [← e', ← r1]; simp [List.map_map, Function.comp_def]
                  · rw [← q1', ← r2]; simp [List.map_map, Function.comp_def]
    · -- enums
      rename_i j vs
      have hlt : ∀ w ∈ vs, sizeOf w < sizeOf (Val.variant j vs) := by
        intro w hw; have := Val.sizeOf_mem hw; simp; omega
      simp only [JsonExact, Holds] at hX
      cases hdf : env.defs[i]? with
      | none => rw [hdf] at hT; exact absurd hT id
      | some d =>
        rw [hdf] at hT hX
        have hdo := hE i d hdf
        cases d with
        | struct fs cd nul => exact absurd hT id
        | tuple ts tr => exact absurd hT id
        | enum vars =>
          simp only at hT hX
          obtain ⟨o1, o2, o3⟩ := hdo
          cases hj : vars[j]? with
          | none => rw [hj] at hT; exact absurd hT id
          | some vr =>
            rw [hj] at hT hX
            have hmem : vr ∈ vars := List.mem_of_getElem? hj
            -- the new variant
            have hnew : ∀ u, Core env env' R (.named i) u → ∃ (j' : Nat) (vars' : List Variant) (n : Nat) (vr' : Variant), u = .named j' ∧ env'.defs[j']? = some (.enum vars') ∧
                vars'[n]? = some vr' ∧ vr'.jsonName = vr.jsonName ∧ ShapeEvo env env' R vr.shape vr'.shape := by
              intro u hu
              cases hu with
              | list h => cases h
              | unwrap a => rw [hdf] at a; cases a
              | @named _ j' hR =>
                obtain ⟨d, e, hd, he, hde⟩ := hEv i j' hR
                rw [hdf] at hd
                injection hd with hd
                subst hd
                cases hde with
                | @enum _ vars' hv =>
                  obtain ⟨vr', m1, m2, m3⟩ := hv vr hmem
                  obtain ⟨n, hn, e'⟩ := List.mem_iff_getElem.1 m1
                  exact ⟨j', vars', n, vr', rfl, he, by rw [List.getElem?_eq_getElem hn, e'], m2, m3⟩
            have hnn : ¬ NullForm env (.named i) (.variant j vs) := by intro h; cases h
            obtain ⟨nm, rn, sh⟩ := vr
            cases sh with
            | unit =>
              simp only at hT
              subst hT
              refine mk (.str (rn.getD nm)) ?_ (fun _ => ⟨fun h => by (cases h), fun h => absurd h hnn⟩) fun u hu => ?_
              · rw [serJson, hdf]
                simp only [hj]
                exact label_spells (o1 _ hmem)
              · obtain ⟨j', vars', n, vr', rfl, u2, u3, u4, u5⟩ := hnew u hu
                generalize hsh : vr'.shape = sh' at u5
                cases u5
                refine ⟨.variant n [], ?_, .variant hdf u2 hj u3 u4.symm rfl hsh⟩
                have := JsonMeans.variant (env := env') (fl := fl) u2 u3 hsh
                rw [u4] at this
                exact this
            | tuple ts =>
              simp only at hT hX
              obtain ⟨qs, q1, q1', ⟨q2, q3⟩, q4⟩ := mig_tys (env' := env') (fl := fl) (R := R) ts vs hT
                (htys ts vs (fun t ht => tyWf_tupleVar hw hdf hmem rfl ht) hlt hT hX.2)
              refine mk (.obj [(.str (rn.getD nm), .arr (qs.map (·.2.2)) false)] false) ?_
                (fun _ => ⟨fun h => by (cases h), fun h => absurd h hnn⟩) fun u hu => ?_
              · have hm := member_spells (o1 _ hmem) (Spells.arr (fl := fl) (.inl rfl) q2 q3)
                have := Spells.obj (ms := [(.str (rn.getD nm), .arr (qs.map (·.2.2)) false)]) (txts := [_]) rfl (fun p hp => by
                  simp only [List.zip_cons_cons, List.mem_cons, List.zip_nil_right, List.not_mem_nil, or_false] at hp
                  subst hp
                  exact hm)
                rw [serJson, hdf]
                simp only [hj]
                exact this
              · obtain ⟨j', vars', n, vr', rfl, u2, u3, u4, u5⟩ := hnew u hu
                generalize hsh : vr'.shape = sh' at u5
                generalize hts : Shape.tuple ts = S at u5
                cases u5 with
                | unit => cases hts
                | named => cases hts
                | tuple ps hps =>
                  injection hts with hts
                  obtain ⟨rs, r1, r2, r3⟩ := mig_chooseTys ps hps qs (by rw [q1, hts]) q4
                  refine ⟨.variant n (rs.map (·.2.2.2)), ?_, ?_⟩
                  · have := JsonMeans.tupleVariant (env := env') (fl := fl) (tr := false) (rs.map fun r => (r.1.2, r.2.2.1, r.2.2.2)) u2 u3
                      (by rw [hsh, ← r1]; simp [List.map_map, Function.comp_def])
                      (by intro p hp; obtain ⟨r, hr, rfl⟩ := List.mem_map.1 hp; exact (r3 r hr).1)
                    rw [u4] at this
                    rw [← r2]
                    simpa [List.map_map, Function.comp_def, Variant.jsonName] using this
                  · have := Migrates.tupleVariant (env := env) (env' := env') (rs.map fun r => (r.1, (r.2.1, r.2.2.2))) hdf u2 hj u3 u4.symm
                      (by rw [hts, ← r1]; simp [List.map_map, Function.comp_def])
                      (by rw [hsh, ← r1]; simp [List.map_map, Function.comp_def])
                      (by intro p hp; obtain ⟨r, hr, rfl⟩ := List.mem_map.1 hp; exact (r3 r hr).2)
                    rw [← q1', ← r2]
                    simpa [List.map_map, Function.comp_def] using this
            | named fs =>
              simp only at hT hX
              have hok := o3 _ hmem fs rfl
              obtain ⟨qs, tr, q1, _, q3⟩ := mig_varFields (env' := env') (fl := fl) (R := R) fs vs hT hX.2
                (fun f w hm hx => ih w (hlt w (List.of_mem_zip hm).2) f.ty (tyWf_structVar hw hdf hmem rfl (List.of_mem_zip hm).1)
                  (fieldsTy_zip hT hm) hx) hok.noSkip hok.noRename hok.plain
              refine mk (.obj [(.str (rn.getD nm), .obj (qs.map fun q => (JTree.str q.1, q.2)) tr)] false) ?_
                (fun _ => ⟨fun h => by (cases h), fun h => absurd h hnn⟩) fun u hu => ?_
              · have hm := member_spells (o1 _ hmem) (Spells.obj_of q1)
                have := Spells.obj (ms := [(.str (rn.getD nm), .obj (qs.map fun q => (JTree.str q.1, q.2)) tr)]) (txts := [_]) rfl (fun p hp => by
                  simp only [List.zip_cons_cons, List.mem_cons, List.zip_nil_right, List.not_mem_nil, or_false] at hp
                  subst hp
                  exact hm)
                rw [serJson, hdf]
                simp only [hj]
                exact this
              · obtain ⟨j', vars', n, vr', rfl, u2, u3, u4, u5⟩ := hnew u hu
                generalize hsh : vr'.shape = sh' at u5
                cases u5 with
                | @named _ gs hv =>
                  obtain ⟨ps, ws, p1, p2, p3, p4⟩ := mig_members (hE.distinctProg.varFields i vars hdf _ hmem fs rfl)
                    (hd'.varFields j' vars' u2 vr' (List.mem_of_getElem? u3) gs hsh) (fieldsTy_length_ev hT) hv q3
                  refine ⟨.variant n ws, ?_, .structVariant _ hdf u2 hj u3 u4.symm rfl hsh p4 fun _ _ _ _ h => h⟩
                  have := JsonMeans.structVariant (env := env') (fl := fl) (tr := tr) ps u2 u3 hsh p2 p3
                  rw [u4, p1] at this
                  exact this

/-- What the old program writes, the new one reads as the corresponding value. -/
theorem json_evolves (hw : ProgWf env) (hp : Productive env) (hk : LawfulKeys env) (hfl : FloatLaws fl) (hE : JsonEnvOk env)
    (hEx : Extends env env') (hd' : DistinctProg env') (hk' : LawfulKeys env') (hEv : Evolution env env' R) {t u : Ty} {v : Val}
    (ht : TyWf env t) (hT : HasTy env t v) (hX : JsonExact env t v) (hu : TyEvo env env' R t u) :
    ∃ w, Migrates env env' t u v w ∧ Decodes (fun n => deserializeJson env' fl n u (serJson env fl t v)) w := by
  obtain ⟨J, h1, h2⟩ := jmig hw hp hk hfl hE hEx hd' hk' hEv v t ht hT hX
  obtain ⟨w, w1, w2⟩ := h2.2.2 u hu
  obtain ⟨n, hn⟩ := decode_of_means hk' hd' w1 h1.text.spellable
  refine ⟨w, w2, n + J.lexemes.length, fun m hm => ?_⟩
  have := deserializeJson_agree (env := env') h1.text u (m - J.lexemes.length) m (by omega)
  rw [hn _ (by omega)] at this
  obtain ⟨s, e, _⟩ := this
  exact ⟨s, e⟩

end NS
