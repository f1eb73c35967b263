import Verif.Lemmas.RonText
import Verif.Lemmas.JsonRoundTrip
import Verif.Lemmas.RonExactT
/-! The RON round trip: what is written spells a value that means the one written. -/
namespace NS
variable {env : Env} {fl : FloatOps}

/-- The text of `v` spells a RON value that means `v`. -/
def RRound (env : Env) (fl : FloatOps) (t : Ty) (v : Val) : Prop :=
  ∃ x, RSpells fl x (serRon env fl t v) ∧ (NotNone x ∨ NoneLike (serRon env fl t v)) ∧ RonMeans env fl t x v

theorem rItems_round {t : Ty} (vs : List Val) (h : ∀ v ∈ vs, RRound env fl t v) :
    ∃ ps : List (RTree × Val), ps.map (·.2) = vs ∧ (∀ p ∈ ps, RonMeans env fl t p.1 p.2) ∧
      (ps.map (·.1)).length = (serRonAll env fl t vs).length ∧
      ∀ p ∈ (ps.map (·.1)).zip (serRonAll env fl t vs), RSpells fl p.1 p.2 := by
  induction vs with
  | nil => exact ⟨[], rfl, by simp, rfl, by simp⟩
  | cons v vs ih =>
    obtain ⟨ps, h1, h2, h3, h4⟩ := ih fun w hw => h w (by simp [hw])
    obtain ⟨x, hs, _, hm⟩ := h v (by simp)
    refine ⟨(x, v) :: ps, by simp [h1], ?_, by simpa [serRonAll] using h3, ?_⟩
    · intro p hp
      rcases List.mem_cons.1 hp with rfl | hp
      · exact hm
      · exact h2 p hp
    · intro p hp
      simp only [serRonAll, List.map_cons, List.zip_cons_cons, List.mem_cons] at hp
      rcases hp with rfl | hp
      · exact hs
      · exact h4 p hp

theorem rEntries_round {k t : Ty} (vs : List Val)
    (h : ∀ v ∈ vs, ∃ a b, v = .entry a b ∧ RRound env fl k a ∧ RRound env fl t b) :
    ∃ ps : List ((RTree × Val) × (RTree × Val)), (ps.map fun p => Val.entry p.1.2 p.2.2) = vs ∧
      (∀ p ∈ ps, RonMeans env fl k p.1.1 p.1.2) ∧ (∀ p ∈ ps, RonMeans env fl t p.2.1 p.2.2) ∧
      (ps.map fun p => (p.1.1, p.2.1)).length = (serRonEntries env fl k t vs).length ∧
      ∀ p ∈ (ps.map fun p => (p.1.1, p.2.1)).zip (serRonEntries env fl k t vs),
        RLSpells fl (p.1.1.lexemes ++ .punct .colon :: p.1.2.lexemes) p.2 := by
  induction vs with
  | nil => exact ⟨[], rfl, by simp, by simp, rfl, by simp⟩
  | cons v vs ih =>
    obtain ⟨ps, h1, h2, h2', h3, h4⟩ := ih fun w hw => h w (by simp [hw])
    obtain ⟨a, b, rfl, ⟨x, ks, _, km⟩, ⟨y, hs, _, hm⟩⟩ := h v (by simp)
    refine ⟨((x, a), (y, b)) :: ps, by simp [h1], ?_, ?_, by simpa [serRonEntries] using h3, ?_⟩
    · intro p hp
      rcases List.mem_cons.1 hp with rfl | hp
      · exact km
      · exact h2 p hp
    · intro p hp
      rcases List.mem_cons.1 hp with rfl | hp
      · exact hm
      · exact h2' p hp
    · intro p hp
      simp only [serRonEntries, List.map_cons, List.zip_cons_cons, List.mem_cons] at hp
      rcases hp with rfl | hp
      · exact RLSpells.append ks (RLSpells.punct .colon hs) fun r _ => RSepText.cons (by simp)
      · exact h4 p hp

theorem rTys_round (ts : List Ty) (vs : List Val) (hT : TysTy env ts vs)
    (h : ∀ p ∈ ts.zip vs, RRound env fl p.1 p.2) :
    ∃ ps : List (Ty × RTree × Val), ps.map (·.1) = ts ∧ ps.map (·.2.2) = vs ∧
      (∀ p ∈ ps, RonMeans env fl p.1 p.2.1 p.2.2) ∧
      (ps.map (·.2.1)).length = (serRonTys env fl ts vs).length ∧
      ∀ p ∈ (ps.map (·.2.1)).zip (serRonTys env fl ts vs), RSpells fl p.1 p.2 := by
  induction ts generalizing vs with
  | nil =>
    cases vs with
    | nil => exact ⟨[], rfl, rfl, by simp, rfl, by simp⟩
    | cons v vs => simp [TysTy] at hT
  | cons t ts ih =>
    cases vs with
    | nil => simp [TysTy] at hT
    | cons v vs =>
      simp only [TysTy] at hT
      obtain ⟨ps, h0, h1, h2, h3, h4⟩ := ih vs hT.2 fun p hp => h p (by simp [hp])
      obtain ⟨x, hs, _, hm⟩ := h (t, v) (by simp)
      refine ⟨(t, x, v) :: ps, by simp [h0], by simp [h1], ?_, by simpa [serRonTys] using h3, ?_⟩
      · intro p hp
        rcases List.mem_cons.1 hp with rfl | hp
        · exact hm
        · exact h2 p hp
      · intro p hp
        simp only [serRonTys, List.map_cons, List.zip_cons_cons, List.mem_cons] at hp
        rcases hp with rfl | hp
        · exact hs
        · exact h4 p hp

/-! ## Structs -/

/-- How the members of a struct supply its fields. -/
inductive RPlaced : List Field → List Val → List RMember → Prop where
  | nil : RPlaced [] [] []
  | skip {f fs v vs ps} : f.skip = true ∨ f.optSyn = true → v = f.absentValue → RPlaced fs vs ps →
      RPlaced (f :: fs) (v :: vs) ps
  | put {f fs v vs ps x} : f.skip = false → RPlaced fs vs ps →
      RPlaced (f :: fs) (v :: vs) ((f.jsonName, x, v) :: ps)

theorem RPlaced.known {fs vs ps} (h : RPlaced fs vs ps) : ∀ p ∈ ps, ∃ f ∈ fs, f.skip = false ∧ f.jsonName = p.1 := by
  induction h with
  | nil => simp
  | skip _ _ _ ih =>
    intro p hp
    obtain ⟨f, hf, h⟩ := ih p hp
    exact ⟨f, List.mem_cons_of_mem _ hf, h⟩
  | put hs _ ih =>
    intro p hp
    rcases List.mem_cons.1 hp with rfl | hp
    · exact ⟨_, List.mem_cons_self .., hs, rfl⟩
    · obtain ⟨f, hf, h⟩ := ih p hp
      exact ⟨f, List.mem_cons_of_mem _ hf, h⟩

theorem RPlaced.length {fs vs ps} (h : RPlaced fs vs ps) : vs.length = fs.length := by
  induction h with
  | nil => rfl
  | skip _ _ _ ih => simp [ih]
  | put _ _ ih => simp [ih]

theorem RPlaced.gets {cd fs vs ps} (h : RPlaced fs vs ps) (hd : DistinctNames fs) :
    ∀ (i : Nat) f w, fs[i]? = some f → vs[i]? = some w → FieldGets cd ps f w := by
  induction h with
  | nil => intro i f w h; simp at h
  | @skip g fs v vs ps h1 h2 h3 ih =>
    obtain ⟨hd1, hd2⟩ := List.pairwise_cons.1 hd
    intro i f w hf hw
    cases i with
    | zero =>
      simp at hf hw
      subst hf hw
      unfold FieldGets
      cases hs : g.skip with
      | true => rw [if_pos rfl]; exact h2
      | false =>
        rw [if_neg (by simp)]
        refine .inr ⟨fun q hq e => ?_, ?_, h2⟩
        · obtain ⟨f, hf, hfs, hfn⟩ := h3.known q hq
          exact hd1 f hf hs hfs (by rw [hfn, e])
        · rcases h1 with h | h
          · exact .inl h
          · exact .inr (.inl h)
    | succ i => exact ih hd2 i f w (by simpa using hf) (by simpa using hw)
  | @put g fs v vs ps x h1 h3 ih =>
    obtain ⟨hd1, hd2⟩ := List.pairwise_cons.1 hd
    intro i f w hf hw
    cases i with
    | zero =>
      simp at hf hw
      subst hf hw
      unfold FieldGets
      rw [if_neg (by simp [h1])]
      refine .inl ⟨[], _, ps, rfl, rfl, fun q hq e => ?_, rfl⟩
      obtain ⟨f, hf, hfs, hfn⟩ := h3.known q hq
      exact hd1 f hf h1 hfs (by rw [hfn, e])
    | succ i =>
      have hf' : fs[i]? = some f := by simpa using hf
      have := ih hd2 i f w hf' (by simpa using hw)
      unfold FieldGets at this ⊢
      cases hs : f.skip with
      | true => rw [if_pos hs] at this; rw [if_pos rfl]; exact this
      | false =>
        rw [if_neg (by simp [hs])] at this
        rw [if_neg (by simp)]
        rcases this with ⟨a, p, b, rfl, h⟩ | ⟨h, h'⟩
        · exact .inl ⟨_ :: a, p, b, rfl, h⟩
        · refine .inr ⟨fun q hq => ?_, h'⟩
          rcases List.mem_cons.1 hq with rfl | hq
          · exact hd1 f (List.mem_of_getElem? hf') h1 hs
          · exact h q hq

theorem rFields_round (fs : List Field) (vs : List Val)
    (ih : ∀ v ∈ vs, ∀ t, HasTy env t v → RonExactT env fl t v → RRound env fl t v)
    (hT : FieldsTy env fs vs)
    (hH : HoldsFields env (RonNodeOkT env fl) Field.absentValue false true fs vs)
    (hnames : ∀ f ∈ fs, f.skip = false → RonName f.jsonName)
    (hom : ∀ f ∈ fs, f.skip = false → f.optSyn = true → f.absentValue = .none)
    (hd : DistinctNames fs) :
    ∃ ps, (ps.map fun p : RMember => (p.1, p.2.1)).length = (serRonFields env fl true fs vs).length ∧
      (∀ p ∈ (ps.map fun p : RMember => (p.1, p.2.1)).zip (serRonFields env fl true fs vs),
        RLSpells fl (.word p.1.1 :: .punct .colon :: p.1.2.lexemes) p.2) ∧
      RPlaced fs vs ps ∧
      (∀ p ∈ ps, ∀ f ∈ fs, f.skip = false → f.jsonName = p.1 → RonMeans env fl f.ty p.2.1 p.2.2) := by
  induction fs generalizing vs with
  | nil =>
    cases vs with
    | nil => exact ⟨[], rfl, by simp, .nil, by simp⟩
    | cons v vs => simp [FieldsTy] at hT
  | cons f fs ihf =>
    cases vs with
    | nil => simp [FieldsTy] at hT
    | cons v vs =>
      simp only [FieldsTy] at hT
      simp only [HoldsFields] at hH
      obtain ⟨hd1, hd2⟩ := List.pairwise_cons.1 hd
      obtain ⟨ps, h1, h2, h3, h4⟩ := ihf vs (fun w hw => ih w (by simp [hw])) hT.2 hH.2
        (fun g hg => hnames g (by simp [hg])) (fun g hg => hom g (by simp [hg])) hd2
      have hskip : f.skip = true ∨ f.optSyn = true → v = f.absentValue →
          serRonFields env fl true (f :: fs) (v :: vs) = serRonFields env fl true fs vs →
          ∃ ps, (ps.map fun p : RMember => (p.1, p.2.1)).length = (serRonFields env fl true (f :: fs) (v :: vs)).length ∧
          (∀ p ∈ (ps.map fun p : RMember => (p.1, p.2.1)).zip (serRonFields env fl true (f :: fs) (v :: vs)),
            RLSpells fl (.word p.1.1 :: .punct .colon :: p.1.2.lexemes) p.2) ∧
          RPlaced (f :: fs) (v :: vs) ps ∧
          (∀ p ∈ ps, ∀ g ∈ f :: fs, g.skip = false → g.jsonName = p.1 → RonMeans env fl g.ty p.2.1 p.2.2) := by
        intro a b e
        rw [e]
        refine ⟨ps, h1, h2, .skip a b h3, fun p hp g hg hs hn => ?_⟩
        rcases List.mem_cons.1 hg with rfl | hg
        · obtain ⟨f', hf', hs', hn'⟩ := h3.known p hp
          exact absurd (by rw [hn, hn']) (hd1 f' hf' hs hs')
        · exact h4 p hp g hg hs hn
      cases hsk : f.skip with
      | true =>
        rw [if_pos ⟨trivial, hsk⟩] at hH
        exact hskip (.inl hsk) hH.1 (by simp [serRonFields, hsk])
      | false =>
        rw [if_neg (by simp [hsk])] at hH
        by_cases hn : f.optSyn = true ∧ v.isNone = true
        · have hv : v = .none := by cases v <;> simp [Val.isNone] at hn ⊢
          exact hskip (.inr hn.1) (by rw [hv, hom f (by simp) hsk hn.1]) (by rw [serRonFields, if_neg (by simp [hsk]), if_pos hn])
        · obtain ⟨x, hx, _, hm⟩ := ih v (by simp) f.ty hT.1 hH.1
          have hnm := hnames f (by simp) hsk
          have e : serRonFields env fl true (f :: fs) (v :: vs) =
              ronMember f.jsonName (serRon env fl f.ty v) :: serRonFields env fl true fs vs := by
            rw [serRonFields, if_neg (by simp [hsk]), if_neg hn]
            rfl
          rw [e]
          refine ⟨(f.jsonName, x, v) :: ps, by simpa using h1, ?_, .put hsk h3, ?_⟩
          · intro p hp
            simp only [List.map_cons, List.zip_cons_cons, List.mem_cons] at hp
            rcases hp with rfl | hp
            · exact RLSpells.append (.single (.word hnm.1)) (RLSpells.punct .colon hx) fun r _ => RSepText.cons (by simp)
            · exact h2 p hp
          · intro p hp g hg hs hgn
            rcases List.mem_cons.1 hp with rfl | hpp
            · rcases List.mem_cons.1 hg with rfl | hg
              · exact hm
              · exact absurd hgn.symm (hd1 g hg hsk hs)
            · rcases List.mem_cons.1 hg with rfl | hg
              · obtain ⟨f', hf', hs', hn'⟩ := h3.known p hpp
                exact absurd (by rw [hgn, hn']) (hd1 f' hf' hs hs')
              · exact h4 p hpp g hg hs hgn

theorem serRonFields_plain (fs : List Field) (vs : List Val) (h : ∀ f ∈ fs, f.skip = false ∧ f.rename = none) :
    serRonFields env fl false fs vs = serRonFields env fl true fs vs := by
  induction fs generalizing vs with
  | nil => cases vs <;> rfl
  | cons f fs ih =>
    cases vs with
    | nil => rfl
    | cons v vs =>
      have ⟨h1, h2⟩ := h f (by simp)
      simp only [serRonFields, h1, ih vs fun g hg => h g (by simp [hg]), Field.key, h2]
      simp

theorem holdsFields_plain {P dflt si} (fs : List Field) (vs : List Val) (h : ∀ f ∈ fs, f.skip = false ∧ f.rename = none) :
    HoldsFields env P dflt si false fs vs → HoldsFields env P dflt si true fs vs := by
  induction fs generalizing vs with
  | nil => cases vs <;> simp [HoldsFields]
  | cons f fs ih =>
    cases vs with
    | nil => simp [HoldsFields]
    | cons v vs =>
      have ⟨h1, h2⟩ := h f (by simp)
      simp only [HoldsFields]
      rw [if_neg (by simp), if_neg (by simp [h1])]
      exact fun ⟨a, b⟩ => ⟨a, ih vs (fun g hg => h g (by simp [hg])) b⟩

theorem serRonTys_replicate {t : Ty} {vs : List Val} :
    serRonTys env fl (List.replicate vs.length t) vs = serRonAll env fl t vs := by
  induction vs with
  | nil => rfl
  | cons v vs ih => simp [List.replicate_succ, serRonTys, serRonAll, ih]

theorem intNum_val (i : Int) : (intNum i).intVal = some i := by
  unfold intNum
  split
  · rfl
  · simp only [Num.intVal]; congr 1; omega

theorem rround (hk : LawfulKeys env) (hfl : FloatLaws fl) (hE : RonEnvOk env) (v : Val) :
    ∀ t, HasTy env t v → RonExactT env fl t v → RRound env fl t v := by
  induction v using Val.sizeInd with
  | h v ih =>
  intro t hT hX
  have hH := Holds.head hX
  have hseq : ∀ (t : Ty) (vs : List Val), v = .seq vs → AllTy env t vs →
      HoldsAll env (RonNodeOkT env fl) Field.absentValue false t vs → ∀ v ∈ vs, RRound env fl t v := by
    intro t vs e h1 h2 w hw
    exact ih w (by subst e; have := Val.sizeOf_mem hw; simp; omega) t (AllTy_iff.1 h1 w hw) (HoldsAll_iff.1 h2 w hw)
  have htys : ∀ (ts : List Ty) (vs : List Val), (∀ w ∈ vs, sizeOf w < sizeOf v) → TysTy env ts vs →
      HoldsTys env (RonNodeOkT env fl) Field.absentValue false ts vs → ∀ p ∈ ts.zip vs, RRound env fl p.1 p.2 := by
    intro ts vs hs h1 h2 p hp
    have := tys_of_zip h1 h2 p hp
    exact ih p.2 (hs _ (List.of_mem_zip hp).2) p.1 this.1 this.2
  have hseqlt : ∀ vs : List Val, v = .seq vs → ∀ w ∈ vs, sizeOf w < sizeOf v := by
    intro vs e w hw; subst e; have := Val.sizeOf_mem hw; simp; omega
  have hmap : ∀ (k t' : Ty) (vs : List Val), v = .seq vs →
      EntriesTy env k t' vs → HoldsEntries env (RonNodeOkT env fl) Field.absentValue false k t' vs →
      ∀ w ∈ vs, ∃ a b, w = .entry a b ∧ RRound env fl k a ∧ RRound env fl t' b := by
    intro k t' vs e hT' hH'
    have hlt := hseqlt vs e
    clear hseq e
    induction vs with
    | nil => simp
    | cons w ws ihw =>
      cases w with
      | entry a b =>
        simp only [EntriesTy] at hT'
        simp only [HoldsEntries] at hH'
        intro w hw
        rcases List.mem_cons.1 hw with rfl | hw
        · have := hlt (.entry a b) (by simp)
          simp only [Val.entry.sizeOf_spec] at this
          exact ⟨a, b, rfl, ih a (by omega) _ hT'.1 hH'.1, ih b (by omega) _ hT'.2.1 hH'.2.1⟩
        · exact ihw hT'.2.2 hH'.2.2 (fun w hw => hlt w (by simp [hw])) w hw
      | _ => simp [EntriesTy] at hT'
  have j1 : ∀ txts, ListText false txts (joinSep [','] txts) := fun _ => .inl ⟨rfl, .inl rfl⟩
  have j2 : ∀ txts, ListText false txts (joinSep [',', ' '] txts) := fun _ => .inl ⟨rfl, .inr rfl⟩
  have jc : ∀ txts, ListText true txts (commaEach txts) := fun _ => .inr ⟨rfl, rfl⟩
  have none_word : RWord noneText := rword_const ⟨_, _, rfl, by decide, by decide⟩
  cases t with
  | unit =>
    cases v <;> simp [HasTy] at hT
    refine ⟨.tuple [] false, ?_, .inl trivial, .unit⟩
    rw [serRon]
    exact RSpells.tuple (txts := []) (body := []) (j1 []) rfl (by simp)
  | bool =>
    cases v <;> simp [HasTy] at hT
    rename_i b
    cases b
    · refine ⟨.word ['f', 'a', 'l', 's', 'e'], ?_, .inl (by simp [NotNone]), .false⟩
      rw [serRon]; exact .word (rword_const ⟨_, _, rfl, by decide, by decide⟩)
    · refine ⟨.word ['t', 'r', 'u', 'e'], ?_, .inl (by simp [NotNone]), .true⟩
      rw [serRon]; exact .word (rword_const ⟨_, _, rfl, by decide, by decide⟩)
  | int k =>
    cases v <;> simp [HasTy] at hT
    rename_i i
    have hk := hH.1 k rfl
    have hb := inRange_text hk hT
    refine ⟨.num (intNum i), ?_, .inl trivial, .int hk (intNum_val i) hT fun hs => ?_⟩
    · rw [serRon]; exact .num (showInt_lit hb.1 hb.2)
    · have h0 : ¬ i < 0 := by have := hT.1; simp [IntKind.lo, hs] at this; omega
      exact ⟨i.toNat, by simp [intNum, h0]⟩
  | f32 =>
    cases v <;> simp [HasTy] at hT
    rename_i x
    have hx := hH.2.2.1 x rfl
    obtain ⟨y, hy, hy'⟩ := hfl.parse_show32 x hx
    refine ⟨.num (.float y), ?_, .inl trivial, ?_⟩
    · rw [serRon]; exact .num (floatLit_num (hfl.lit32 x hx) hy)
    · have := RonMeans.f32 (env := env) (fl := fl) (t := .float y)
      simpa [Num.asF64, hy'] using this
  | f64 =>
    cases v <;> simp [HasTy] at hT
    rename_i x
    have hx := hH.2.1 x rfl
    refine ⟨.num (.float x), ?_, .inl trivial, .f64⟩
    rw [serRon]; exact .num (floatLit_num (hfl.lit64 x hx) (hfl.parse_show64 x hx))
  | str =>
    cases v <;> simp [HasTy] at hT
    rename_i s
    refine ⟨.str s, ?_, .inl trivial, .str⟩
    rw [serRon]; exact .str (ronStr_lit s)
  | dur =>
    cases v <;> simp only [HasTy] at hT
    obtain ⟨ms, h1, h2⟩ := durText_spells (fl := fl) hT.1 hT.2
    rename_i s ns
    refine ⟨.map ms false, by rw [serRon]; exact h2, .inl trivial, ?_⟩
    have h9 := hT.2
    have := RonMeans.dur (env := env) (fl := fl) (tr := false) h1 (by omega) (by have := hT.1; omega)
    rwa [show ns / 1000000000 = 0 by omega, show ns % 1000000000 = ns by omega] at this
  | time =>
    cases v <;> simp only [HasTy] at hT
    rename_i s ns
    have h0 : 0 ≤ s := hH.2.2.2.1 s ns rfl
    obtain ⟨ms, h1, h2⟩ := durText_spells (fl := fl) (s := s.toNat) (n := ns) (by unfold u64Max; omega) hT.2.2
    refine ⟨.map ms false, by rw [serRon, if_pos h0]; exact h2, .inl trivial, ?_⟩
    have := RonMeans.time (env := env) (fl := fl) (tr := false) h1 (by have := hT.2.2; omega) (by have := hT.2.2; omega)
    have h9 := hT.2.2
    rwa [show (s.toNat : Int) + (ns : Int) / 1000000000 = s by omega, show ns % 1000000000 = ns by omega] at this
  | option t =>
    cases v <;> simp only [HasTy] at hT
    · exact ⟨.word noneText, by rw [serRon]; exact .word none_word, .inr (by rw [serRon]; exact .inl rfl), .none⟩
    · rename_i w
      simp only [RonExactT, Holds] at hX
      obtain ⟨x, h1, h2, h3⟩ := ih w (by simp) t hT hX.2
      have hN : NotNone x := by
        rcases h2 with h | h
        · exact h
        · exact absurd h (hH.2.2.2.2.1 t w rfl rfl)
      exact ⟨x, by rw [serRon]; exact h1, .inl hN, .some hN h3⟩
  | vec t =>
    cases v <;> simp only [HasTy] at hT
    simp only [RonExactT, Holds] at hX
    obtain ⟨ps, h1, h2, h3, h4⟩ := rItems_round _ (hseq _ _ rfl hT.1 hX.2)
    refine ⟨.list (ps.map (·.1)) true, by rw [serRon]; exact .list (jc _) h3 h4, .inl trivial, ?_⟩
    have := RonMeans.vec (env := env) (fl := fl) (tr := true) ps h2
    rwa [h1] at this
  | linked t =>
    cases v <;> simp only [HasTy] at hT
    simp only [RonExactT, Holds] at hX
    obtain ⟨ps, h1, h2, h3, h4⟩ := rItems_round _ (hseq _ _ rfl hT.1 hX.2)
    refine ⟨.list (ps.map (·.1)) false, by rw [serRon]; exact .list (j1 _) h3 h4, .inl trivial, ?_⟩
    have := RonMeans.linked (env := env) (fl := fl) (tr := false) ps h2
    rwa [h1] at this
  | hset t =>
    cases v <;> simp only [HasTy] at hT
    simp only [RonExactT, Holds] at hX
    obtain ⟨ps, h1, h2, h3, h4⟩ := rItems_round _ (hseq _ _ rfl hT.1 hX.2)
    refine ⟨.list (ps.map (·.1)) false, by rw [serRon]; exact .list (j1 _) h3 h4, .inl trivial, ?_⟩
    have := RonMeans.hset (env := env) (fl := fl) (tr := false) ps h2
    rwa [h1, firsts_id hT.2.2.2] at this
  | bset t =>
    cases v <;> simp only [HasTy] at hT
    simp only [RonExactT, Holds] at hX
    obtain ⟨ps, h1, h2, h3, h4⟩ := rItems_round _ (hseq _ _ rfl hT.1 hX.2)
    refine ⟨.list (ps.map (·.1)) false, by rw [serRon]; exact .list (j1 _) h3 h4, .inl trivial, ?_⟩
    exact .bset (tr := false) ps h2 ⟨hT.2.2, fun x => by rw [h1]⟩
  | array t len =>
    cases v <;> simp only [HasTy] at hT
    simp only [RonExactT, Holds] at hX
    obtain ⟨ps, h1, h2, h3, h4⟩ := rItems_round _ (hseq _ _ rfl hT.1 hX.2)
    refine ⟨.tuple (ps.map (·.1)) false, by rw [serRon]; exact .tuple (j1 _) h3 h4, .inl trivial, ?_⟩
    have := RonMeans.array (env := env) (fl := fl) (n := len) (tr := false) ps (by rw [← hT.2, ← h1]; simp) h2
    rwa [h1] at this
  | pair a b =>
    cases v <;> simp only [HasTy] at hT
    simp only [RonExactT, Holds] at hX
    obtain ⟨ps, h0, h1, h2, h3, h4⟩ := rTys_round _ _ hT (htys _ _ (hseqlt _ rfl) hT hX.2)
    refine ⟨.tuple (ps.map (·.2.1)) false, by rw [serRon]; exact .tuple (j1 _) h3 h4, .inl trivial, ?_⟩
    have := RonMeans.pair (env := env) (fl := fl) (tr := false) ps h0 h2
    rwa [h1] at this
  | triple a b c =>
    cases v <;> simp only [HasTy] at hT
    simp only [RonExactT, Holds] at hX
    obtain ⟨ps, h0, h1, h2, h3, h4⟩ := rTys_round _ _ hT (htys _ _ (hseqlt _ rfl) hT hX.2)
    refine ⟨.tuple (ps.map (·.2.1)) false, by rw [serRon]; exact .tuple (j1 _) h3 h4, .inl trivial, ?_⟩
    have := RonMeans.triple (env := env) (fl := fl) (tr := false) ps h0 h2
    rwa [h1] at this
  | quad a b c d =>
    cases v <;> simp only [HasTy] at hT
    simp only [RonExactT, Holds] at hX
    obtain ⟨ps, h0, h1, h2, h3, h4⟩ := rTys_round _ _ hT (htys _ _ (hseqlt _ rfl) hT hX.2)
    refine ⟨.tuple (ps.map (·.2.1)) false, by rw [serRon]; exact .tuple (j1 _) h3 h4, .inl trivial, ?_⟩
    have := RonMeans.quad (env := env) (fl := fl) (tr := false) ps h0 h2
    rwa [h1] at this
  | hmap k t =>
    cases v <;> simp only [HasTy] at hT
    simp only [RonExactT, Holds] at hX
    obtain ⟨ps, h1, h2, h2', h3, h4⟩ := rEntries_round _ (hmap _ _ _ rfl hT.1 hX.2)
    refine ⟨.map _ true, by rw [serRon]; exact .map (jc _) h3 h4, .inl trivial, ?_⟩
    refine .hmap (tr := true) ps h2 h2' (by rw [h1]; exact lastWins_self hT.1.allEntries hT.2.2.2) ?_
    rw [← firsts_id (vs := List.map Val.key _) (by rw [List.pairwise_map]; exact hT.2.2.2), ← h1, List.map_map]
    rfl
  | bmap k t =>
    cases v <;> simp only [HasTy] at hT
    simp only [RonExactT, Holds] at hX
    obtain ⟨ps, h1, h2, h2', h3, h4⟩ := rEntries_round _ (hmap _ _ _ rfl hT.1 hX.2)
    refine ⟨.map _ true, by rw [serRon]; exact .map (jc _) h3 h4, .inl trivial, ?_⟩
    refine .bmap (tr := true) ps h2 h2' (by rw [h1]; refine lastWins_self hT.1.allEntries ?_; exact hT.2.2.imp fun {a b} h => fun (e : a.key = b.key) => cmp_irrefl hk b.key (by rw [e] at h; exact h)) hT.2.2
  | box t =>
    cases v <;> simp only [HasTy] at hT
    rename_i w
    simp only [RonExactT, Holds] at hX
    obtain ⟨x, h1, h2, h3⟩ := ih w (by simp) t hT hX.2
    exact ⟨x, by rw [serRon]; exact h1, by rw [serRon]; exact h2, .box h3⟩
  | proxied i => exact absurd rfl (hH.2.2.2.2.2 i)
  | named i =>
    cases v <;> simp only [HasTy] at hT
    · rename_i vs
      have hlt : ∀ w ∈ vs, sizeOf w < sizeOf (Val.struct vs) := by
        intro w hw; have := Val.sizeOf_mem hw; simp; omega
      simp only [RonExactT, Holds] at hX
      cases hdf : env.defs[i]? with
      | none => rw [hdf] at hT; exact absurd hT id
      | some d =>
        rw [hdf] at hT hX
        have hdo := hE i d hdf
        cases d with
        | enum vars => exact absurd hT id
        | struct fs cd nul =>
          simp only at hT hX
          obtain ⟨o1, o2, o3⟩ := hdo
          obtain ⟨ps, h1, h2, h3, h4⟩ := rFields_round fs vs (fun w hw => ih w (hlt w hw)) hT hX.2 o1 o3 o2
          have e : serRon env fl (.named i) (.struct vs) =
            '(' :: (commaEach (serRonFields env fl true fs vs) ++ [')']) := by rw [serRon, hdf]
          refine ⟨.fields _ true, by rw [e]; exact .fields (jc _) h1 h2, .inl trivial, ?_⟩
          refine .struct ps hdf ⟨o2, fun p hp => ?_, h3.length, h3.gets o2⟩ h4
          obtain ⟨f, hf, hs, hn⟩ := h3.known p hp
          exact ⟨hn ▸ (o1 f hf hs).2, f, hf, hs, hn⟩
        | tuple ts tr =>
          simp only at hT hX
          obtain ⟨ps, h0, h1, h2, h3, h4⟩ := rTys_round ts vs hT (htys ts vs hlt hT hX.2)
          have e : serRon env fl (.named i) (.struct vs) =
            '(' :: (joinSep [',', ' '] (serRonTys env fl ts vs) ++ [')']) := by rw [serRon, hdf]
          refine ⟨.tuple (ps.map (·.2.1)) false, by rw [e]; exact .tuple (j2 _) h3 h4, .inl trivial, ?_⟩
          have := RonMeans.tupleStruct (env := env) (fl := fl) (i := i) (trans := tr) (tr := false) ps (by rw [h0]; exact hdf) h2
          rwa [h1] at this
    · rename_i j vs
      have hlt : ∀ w ∈ vs, sizeOf w < sizeOf (Val.variant j vs) := by
        intro w hw; have := Val.sizeOf_mem hw; simp; omega
      simp only [RonExactT, Holds] at hX
      cases hdf : env.defs[i]? with
      | none => rw [hdf] at hT; exact absurd hT id
      | some d =>
        rw [hdf] at hT hX
        have hdo := hE i d hdf
        cases d with
        | struct fs cd nul => exact absurd hT id
        | tuple ts tr => exact absurd hT id
        | enum vars =>
          simp only at hT hX
          obtain ⟨o1, o2, o3⟩ := hdo
          cases hj : vars[j]? with
          | none => rw [hj] at hT; exact absurd hT id
          | some var =>
            rw [hj] at hT hX
            obtain ⟨nm, rn, sh⟩ := var
            obtain ⟨hjl, hje⟩ := List.getElem?_eq_some_iff.1 hj
            have hnm := o1 _ (List.mem_of_getElem? hj)
            have hcall : VariantCalled vars nm j ⟨nm, rn, sh⟩ := by
              refine ⟨hj, rfl, hnm.2, fun i' hi' u hu => ?_⟩
              obtain ⟨hil, hie⟩ := List.getElem?_eq_some_iff.1 hu
              have := List.pairwise_iff_getElem.1 o2 i' j hil hjl hi'
              rw [hie, hje] at this
              exact this
            have nn : ∀ (b : RTree) (y : List Char), NotNone (.ctor nm b) ∨ NoneLike (nm ++ '(' :: y) := by
              intro b y
              by_cases h : nm = noneText
              · exact .inr (.inr ⟨y, by rw [h]⟩)
              · exact .inl h
            cases sh with
            | unit =>
              simp only at hT hX
              have hvs : vs = [] := by
                cases vs with
                | nil => rfl
                | cons => simp at hT
              subst hvs
              have e : serRon env fl (.named i) (.variant j []) = nm := by rw [serRon, hdf]; simp only [hj]
              refine ⟨.word nm, by rw [e]; exact .word hnm.1, ?_, .variant hdf hcall rfl⟩
              rw [e]
              by_cases h : nm = noneText
              · exact .inr (.inl h)
              · exact .inl h
            | tuple ts =>
              simp only at hT hX
              obtain ⟨ps, h0, h1, h2, h3, h4⟩ := rTys_round ts vs hT (htys ts vs hlt hT hX.2)
              have e : serRon env fl (.named i) (.variant j vs) =
                nm ++ '(' :: (joinSep [','] (serRonTys env fl ts vs) ++ [')']) := by rw [serRon, hdf]; simp only [hj]
              refine ⟨.ctor nm (.tuple (ps.map (·.2.1)) false), by rw [e]; exact .ctor hnm.1 (.tuple (j1 _) h3 h4), ?_, ?_⟩
              · rw [e]; exact nn _ _
              · have := RonMeans.tupleVariant (env := env) (fl := fl) (tr := false) ps hdf hcall (by rw [h0]) h2
                rwa [h1] at this
            | named fs =>
              simp only at hT hX
              obtain ⟨⟨f1, f2, f3⟩, f4⟩ := o3 _ (List.mem_of_getElem? hj) fs rfl
              obtain ⟨ps, h1, h2, h3, h4⟩ := rFields_round fs vs (fun w hw => ih w (hlt w hw)) hT
                (holdsFields_plain fs vs f4 hX.2) f1 f3 f2
              have e : serRon env fl (.named i) (.variant j vs) =
                nm ++ '(' :: (commaEach (serRonFields env fl true fs vs) ++ [')']) := by
                rw [serRon, hdf]; simp only [hj, serRonFields_plain fs vs f4]
              refine ⟨.ctor nm (.fields _ true), by rw [e]; exact .ctor hnm.1 (.fields (jc _) h1 h2), ?_, ?_⟩
              · rw [e]; exact nn _ _
              · refine .structVariant ps hdf hcall rfl ⟨f2, fun p hp => ?_, h3.length, h3.gets f2⟩ h4
                obtain ⟨f, hf, hs, hn⟩ := h3.known p hp
                exact ⟨hn ▸ (f1 f hf hs).2, f, hf, hs, hn⟩

/-- What is written is read back. -/
theorem ron_round (hk : LawfulKeys env) (hfl : FloatLaws fl) (hE : RonEnvOk env) {t : Ty} {v : Val}
    (hT : HasTy env t v) (hX : RonExactT env fl t v) :
    Decodes (fun n => deserializeRon env fl n t (serRon env fl t v)) v := by
  obtain ⟨x, h1, _, h2⟩ := rround hk hfl hE v t hT hX
  exact ron_reads hk h1.text h2

end NS
