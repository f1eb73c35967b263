import Verif.Lemmas.Reread
import Verif.Lemmas.RonLex
/-! Values that come out of the RON reader: typing and exactness. -/
set_option linter.unusedSimpArgs false
namespace NS
variable {env : Env} {fl : FloatOps}

theorem rlist_item {xs : List RTree} {tr : Bool} {x : RTree} (h : x ∈ xs) : x.lexemes.length ≤ (RTree.list xs tr).lexemes.length := by
  rw [RTree.lexemes_list]
  have := comma_item (tr := tr) (List.mem_map.2 ⟨x, h, rfl⟩ : x.lexemes ∈ xs.map RTree.lexemes)
  simp only [List.length_cons, List.length_append]
  omega
theorem rtuple_item {xs : List RTree} {tr : Bool} {x : RTree} (h : x ∈ xs) : x.lexemes.length ≤ (RTree.tuple xs tr).lexemes.length := by
  rw [RTree.lexemes_tuple]
  have := comma_item (tr := tr) (List.mem_map.2 ⟨x, h, rfl⟩ : x.lexemes ∈ xs.map RTree.lexemes)
  simp only [List.length_cons, List.length_append]
  omega
theorem rlist_count (xs : List RTree) (tr : Bool) : xs.length ≤ (RTree.list xs tr).lexemes.length := by
  rw [RTree.lexemes_list]
  have := comma_count tr (xs.map RTree.lexemes)
  simp only [List.length_cons, List.length_append, List.length_map] at this ⊢
  omega
theorem rmap_item {ms : List (RTree × RTree)} {tr : Bool} {m : RTree × RTree} (h : m ∈ ms) :
    m.1.lexemes.length + m.2.lexemes.length ≤ (RTree.map ms tr).lexemes.length := by
  rw [RTree.lexemes_map]
  have := comma_item (tr := tr) (List.mem_map.2 ⟨m, h, rfl⟩ : m.1.lexemes ++ .punct .colon :: m.2.lexemes ∈
    ms.map fun m => m.1.lexemes ++ .punct .colon :: m.2.lexemes)
  simp only [List.length_cons, List.length_append] at this ⊢
  omega
theorem rmap_count (ms : List (RTree × RTree)) (tr : Bool) : ms.length ≤ (RTree.map ms tr).lexemes.length := by
  rw [RTree.lexemes_map]
  have := comma_count tr (ms.map fun m => m.1.lexemes ++ .punct .colon :: m.2.lexemes)
  simp only [List.length_cons, List.length_append, List.length_map] at this ⊢
  omega
theorem rfields_item {ms : List (List Char × RTree)} {tr : Bool} {m : List Char × RTree} (h : m ∈ ms) :
    m.2.lexemes.length ≤ (RTree.fields ms tr).lexemes.length := by
  rw [RTree.lexemes_fields]
  have := comma_item (tr := tr) (List.mem_map.2 ⟨m, h, rfl⟩ : Lexeme.word m.1 :: .punct .colon :: m.2.lexemes ∈
    ms.map fun m => Lexeme.word m.1 :: .punct .colon :: m.2.lexemes)
  simp only [List.length_cons, List.length_append] at this ⊢
  omega

/-! ### Typing -/

theorem rmeans_field {fs : List Field} {cd : Bool} {ps : List RMember} {vs : List Val} {L : Nat}
    (hs : SaneText env) (hf : ∀ f ∈ fs, FieldOf env cd f) (hg : FieldsGet cd fs ps vs)
    (hL : ∀ p ∈ ps, p.2.1.lexemes.length ≤ L)
    (ih : ∀ p ∈ ps, ∀ f ∈ fs, f.skip = false → f.jsonName = p.1 → p.2.1.lexemes.length ≤ u64Max → HasTy env.unlimited f.ty p.2.2)
    (hl : L ≤ u64Max) : FieldsTy env.unlimited fs vs := by
  refine fieldsTy_of_get hg.2.2.1 fun i f w h1 h2 => ?_
  have hm := List.mem_of_getElem? h1
  have h := hg.2.2.2 i f w h1 h2
  unfold FieldGets at h
  split at h
  · rename_i hsk
    subst h
    exact hs.absent cd f (hf f hm) (.inl hsk)
  · rename_i hsk
    have hsk : f.skip = false := by simpa using hsk
    rcases h with ⟨a, p, b, rfl, h3, _, rfl⟩ | ⟨_, h3, rfl⟩
    · exact ih p (by simp) f hm hsk h3.symm (Nat.le_trans (hL p (by simp)) hl)
    · exact hs.absent cd f (hf f hm) h3

theorem rmeans_typed (hk : LawfulKeys env) (hs : SaneText env) {t : Ty} {x : RTree} {v : Val} (h : RonMeans env fl t x v) :
    x.lexemes.length ≤ u64Max → HasTy env.unlimited t v := by
  induction h with
  | unit => intro _; simp [HasTy]
  | true => intro _; simp [HasTy]
  | false => intro _; simp [HasTy]
  | boolNum => intro _; simp [HasTy]
  | int _ _ h _ => intro _; simpa [HasTy] using h
  | intWrap _ _ _ _ h _ => intro _; simpa [HasTy] using h
  | f32 => intro _; simp [HasTy]
  | f64 => intro _; simp [HasTy]
  | str => intro _; simp [HasTy]
  | dur _ _ h => intro _; simp only [HasTy]; exact ⟨h, Nat.mod_lt _ (by decide)⟩
  | epoch => intro _; simp [HasTy]
  | time _ _ h => intro _; simp only [HasTy]; exact ⟨by omega, by omega, Nat.mod_lt _ (by decide)⟩
  | none => intro _; simp [HasTy]
  | some _ _ ih => intro hl; simpa only [HasTy] using ih hl
  | @vec t tr ps h ih =>
    intro hl
    simp only [HasTy]
    refine ⟨allTy_map fun p hp => ih p hp (Nat.le_trans (rlist_item (List.mem_map.2 ⟨p, hp, rfl⟩)) hl), ?_, by simp [Env.unlimited]⟩
    have := rlist_count (ps.map (·.1)) tr
    simp only [List.length_map] at this ⊢
    omega
  | @linked t tr ps h ih =>
    intro hl
    simp only [HasTy]
    refine ⟨allTy_map fun p hp => ih p hp (Nat.le_trans (rlist_item (List.mem_map.2 ⟨p, hp, rfl⟩)) hl), ?_⟩
    have := rlist_count (ps.map (·.1)) tr
    simp only [List.length_map] at this ⊢
    omega
  | @hset t tr ps h ih =>
    intro hl
    simp only [HasTy]
    refine ⟨?_, ?_, rfl, firsts_pairwise _⟩
    · rw [AllTy_iff]
      intro v hv
      obtain ⟨p, hp, rfl⟩ := List.mem_map.1 (firsts_mem.1 hv)
      exact ih p hp (Nat.le_trans (rlist_item (List.mem_map.2 ⟨p, hp, rfl⟩)) hl)
    · have := rlist_count (ps.map (·.1)) tr
      have h2 := firsts_length (ps.map (·.2))
      simp only [List.length_map] at this h2
      omega
  | @bset t tr r ps h hr ih =>
    intro hl
    simp only [HasTy]
    refine ⟨?_, ?_, hr.1⟩
    · rw [AllTy_iff]
      intro v hv
      obtain ⟨p, hp, rfl⟩ := List.mem_map.1 ((hr.2 v).1 hv)
      exact ih p hp (Nat.le_trans (rlist_item (List.mem_map.2 ⟨p, hp, rfl⟩)) hl)
    · have := rlist_count (ps.map (·.1)) tr
      have h2 := subset_length (pairwise_of_lt hk hr.1) fun x hx => (hr.2 x).1 hx
      simp only [List.length_map] at this h2
      omega
  | @array t n tr ps hn h ih =>
    intro hl
    simp only [HasTy]
    exact ⟨allTy_map fun p hp => ih p hp (Nat.le_trans (rtuple_item (List.mem_map.2 ⟨p, hp, rfl⟩)) hl), by simpa using hn⟩
  | @pair a b tr ps hn h ih =>
    intro hl
    simp only [HasTy]
    rw [← hn]
    exact tysTy_map fun p hp => ih p hp (Nat.le_trans (rtuple_item (List.mem_map.2 ⟨p, hp, rfl⟩)) hl)
  | @triple a b c tr ps hn h ih =>
    intro hl
    simp only [HasTy]
    rw [← hn]
    exact tysTy_map fun p hp => ih p hp (Nat.le_trans (rtuple_item (List.mem_map.2 ⟨p, hp, rfl⟩)) hl)
  | @quad a b c d tr ps hn h ih =>
    intro hl
    simp only [HasTy]
    rw [← hn]
    exact tysTy_map fun p hp => ih p hp (Nat.le_trans (rtuple_item (List.mem_map.2 ⟨p, hp, rfl⟩)) hl)
  | @hmap k t tr r ps h1 h2 hw hr ih1 ih2 =>
    intro hl
    simp only [HasTy]
    have hp : r.Pairwise (fun a b => a.key ≠ b.key) := pairwise_of_keys (hr ▸ firsts_pairwise _)
    refine ⟨?_, ?_, rfl, hp⟩
    · refine entriesTy_of fun e he => ?_
      obtain ⟨p, hp, rfl⟩ := List.mem_map.1 (lastWins_mem hw hp he).1
      have hlen := Nat.le_trans (rmap_item (tr := tr) (List.mem_map.2 ⟨p, hp, rfl⟩)) hl
      simp only at hlen
      exact ⟨_, _, rfl, ih1 p hp (by omega), ih2 p hp (by omega)⟩
    · have := rmap_count (ps.map fun p => (p.1.1, p.2.1)) tr
      have h2 := lastWins_length hw hp
      simp only [List.length_map] at this h2
      omega
  | @bmap k t tr r ps h1 h2 hw hr ih1 ih2 =>
    intro hl
    simp only [HasTy]
    have hp := pairwise_of_lt_key hk hr
    refine ⟨?_, ?_, hr⟩
    · refine entriesTy_of fun e he => ?_
      obtain ⟨p, hp, rfl⟩ := List.mem_map.1 (lastWins_mem hw hp he).1
      have hlen := Nat.le_trans (rmap_item (tr := tr) (List.mem_map.2 ⟨p, hp, rfl⟩)) hl
      simp only at hlen
      exact ⟨_, _, rfl, ih1 p hp (by omega), ih2 p hp (by omega)⟩
    · have := rmap_count (ps.map fun p => (p.1.1, p.2.1)) tr
      have h2 := lastWins_length hw hp
      simp only [List.length_map] at this h2
      omega
  | box _ ih => intro hl; simpa only [HasTy] using ih hl
  | @struct i fs cd nul vs tr ps hd hg h ih =>
    intro hl
    simp only [HasTy]; rw [show env.unlimited.defs[i]? = _ from hd]
    refine rmeans_field hs (fun f hf => .inl ⟨i, fs, nul, hd, hf⟩) hg (L := (RTree.fields (ps.map fun p => (p.1, p.2.1)) tr).lexemes.length) ?_ ih hl
    intro p hp
    exact rfields_item (m := (p.1, p.2.1)) (List.mem_map.2 ⟨p, hp, rfl⟩)
  | @tupleStruct i trans tr ps hd h ih =>
    intro hl
    simp only [HasTy]; rw [show env.unlimited.defs[i]? = _ from hd]; simp only
    exact tysTy_map fun p hp => ih p hp (Nat.le_trans (rtuple_item (List.mem_map.2 ⟨p, hp, rfl⟩)) hl)
  | @variant i vars w j var hd hv hsh =>
    intro _
    replace hv := hv.1
    obtain ⟨nm, rn, sh⟩ := var
    cases hsh
    simp only [HasTy]; rw [show env.unlimited.defs[i]? = _ from hd]; simp only; rw [hv]; exact trivial
  | @tupleVariant i vars w j var tr ps hd hv hsh h ih =>
    intro hl
    replace hv := hv.1
    obtain ⟨nm, rn, sh⟩ := var
    cases hsh
    rw [RTree.lexemes_ctor, List.length_cons] at hl
    simp only [HasTy]; rw [show env.unlimited.defs[i]? = _ from hd]; simp only; rw [hv]
    refine tysTy_map fun p hp => ih p hp ?_
    have h2 := rtuple_item (tr := tr) (List.mem_map.2 ⟨p, hp, rfl⟩ : p.2.1 ∈ ps.map (·.2.1))
    omega
  | @structVariant i vars w j var fs vs tr ps hd hv hsh hg h ih =>
    intro hl
    replace hv := hv.1
    have hf : ∀ f ∈ fs, FieldOf env false f := fun f hf =>
      .inr ⟨rfl, i, vars, var, fs, hd, List.mem_of_getElem? hv, hsh, hf⟩
    obtain ⟨nm, rn, sh⟩ := var
    cases hsh
    rw [RTree.lexemes_ctor, List.length_cons] at hl
    simp only [HasTy]; rw [show env.unlimited.defs[i]? = _ from hd]; simp only; rw [hv]
    refine rmeans_field hs hf hg (L := (RTree.fields (ps.map fun p => (p.1, p.2.1)) tr).lexemes.length) ?_ ih (by omega)
    intro p hp
    exact rfields_item (m := (p.1, p.2.1)) (List.mem_map.2 ⟨p, hp, rfl⟩)

theorem wordPair_typed {t : Ty} {a b : List Char} {v : Val} (h : WordPair env t a b v) : HasTy env.unlimited t v := by
  induction h with
  | some _ _ ih => simpa only [HasTy] using ih
  | box _ ih => simpa only [HasTy] using ih
  | @variant i vars w w' j var hd _ hv _ _ hsh =>
    obtain ⟨nm, rn, sh⟩ := var
    cases hsh
    simp only [HasTy]; rw [show env.unlimited.defs[i]? = _ from hd]; simp only; rw [hv]; exact trivial
  | _ => simp [HasTy]

/-! ### Exactness -/

abbrev REx (env : Env) (t : Ty) (v : Val) : Prop := Holds env (RonNodeOk env) Field.absentValue false t v

theorem rnode {t : Ty} {w : Val} (h1 : ∀ k, t ≠ .int k) (h2 : ∀ x, w ≠ .f64 x) (h3 : ∀ x, w ≠ .f32 x) (h4 : ∀ s n, w ≠ .time s n)
    (h5 : ∀ w', w ≠ .some w') (h6 : ∀ i, t ≠ .proxied i) : RonNodeOk env t w :=
  ⟨fun k e => absurd e (h1 k), fun x e => absurd e (h2 x), fun x e => absurd e (h3 x), fun s n e => absurd e (h4 s n),
    fun _ w' _ e => absurd e (h5 w'), h6⟩

theorem rex_some {t : Ty} {v : Val} (h : REx env t v) (hn : ¬ NoneForm env t v) : REx env (.option t) (.some v) := by
  simp only [REx, Holds]
  exact ⟨⟨by simp, by simp, by simp, by simp, fun t' w' e1 e2 => by cases e1; cases e2; exact hn, by simp⟩, h⟩

theorem rmeans_field_exact {fs : List Field} {cd us : Bool} {ps : List RMember} {vs : List Val}
    (hs : RonSaneText env) (hf : ∀ f ∈ fs, FieldOf env cd f) (hg : FieldsGet cd fs ps vs)
    (hus : us = true ∨ ∀ f ∈ fs, f.skip = false) (hfin : floatsFiniteAll vs)
    (ih : ∀ p ∈ ps, ∀ f ∈ fs, f.skip = false → f.jsonName = p.1 → p.2.2.floatsFinite → REx env f.ty p.2.2) :
    HoldsFields env (RonNodeOk env) Field.absentValue false us fs vs := by
  refine holdsFields_of_get fun i f w h1 h2 => ?_
  have hm := List.mem_of_getElem? h1
  have hw := floatsFiniteAll_iff.1 hfin w (List.mem_of_getElem? h2)
  have h := hg.2.2.2 i f w h1 h2
  unfold FieldGets at h
  by_cases hsk : f.skip = true
  · rw [if_pos hsk] at h
    rcases hus with rfl | hus
    · rw [if_pos ⟨rfl, hsk⟩]; exact h
    · rw [hus f hm] at hsk; cases hsk
  · rw [if_neg hsk] at h
    rw [if_neg fun h => hsk h.2]
    have hsk : f.skip = false := by simpa using hsk
    rcases h with ⟨a, p, b, rfl, h3, _, rfl⟩ | ⟨_, h3, rfl⟩
    · exact ih p (by simp) f hm hsk h3.symm hw
    · exact hs.absentExact cd f (hf f hm) h3 hsk hw

theorem rmeans_notNone {t : Ty} {x : RTree} {v : Val} (h : RonMeans env fl t x v) : NotNone x → ¬ NoneForm env t v := by
  induction h with
  | none => intro h; exact absurd rfl h
  | epoch => intro h; exact absurd rfl h
  | time => intro _ hn; cases hn; omega
  | some _ _ ih => intro h hn; cases hn with | some hn => exact ih h hn
  | box _ ih => intro h hn; cases hn with | box hn => exact ih h hn
  | variant hd hv _ =>
    intro h hn
    cases hn with
    | variant hd' hv' he =>
      rw [hd] at hd'; cases hd'
      rw [hv.1] at hv'; cases hv'
      exact h (hv.2.1 ▸ he)
  | tupleVariant ps hd hv _ _ =>
    intro h hn
    generalize hx : Val.variant _ _ = v at hn
    cases hn with
    | variant hd' hv' he =>
      cases hx
      rw [hd] at hd'; cases hd'
      rw [hv.1] at hv'; cases hv'
      exact h (hv.2.1 ▸ he)
    | _ => cases hx
  | structVariant ps hd hv _ _ _ =>
    intro h hn
    cases hn with
    | variant hd' hv' he =>
      rw [hd] at hd'; cases hd'
      rw [hv.1] at hv'; cases hv'
      exact h (hv.2.1 ▸ he)
  | _ => intro _ hn; cases hn

theorem rmeans_exact (hk : LawfulKeys env) (hE : RonEnvOk env) (hs : RonSaneText env) {t : Ty} {x : RTree} {v : Val}
    (h : RonMeans env fl t x v) : v.floatsFinite → REx env t v := by
  induction h with
  | int h1 _ _ _ => intro _; exact ⟨fun k e => by cases e; exact h1, by simp, by simp, by simp, by simp, by simp⟩
  | intWrap h1 _ _ _ _ _ => intro _; exact ⟨fun k e => by cases e; exact h1, by simp, by simp, by simp, by simp, by simp⟩
  | f32 => intro hf; exact ⟨by simp, by simp, fun x e => by cases e; exact hf, by simp, by simp, by simp⟩
  | f64 => intro hf; exact ⟨by simp, fun x e => by cases e; exact hf, by simp, by simp, by simp, by simp⟩
  | unit => intro _; exact rnode (by simp) (by simp) (by simp) (by simp) (by simp) (by simp)
  | true => intro _; exact rnode (by simp) (by simp) (by simp) (by simp) (by simp) (by simp)
  | false => intro _; exact rnode (by simp) (by simp) (by simp) (by simp) (by simp) (by simp)
  | boolNum => intro _; exact rnode (by simp) (by simp) (by simp) (by simp) (by simp) (by simp)
  | str => intro _; exact rnode (by simp) (by simp) (by simp) (by simp) (by simp) (by simp)
  | dur _ _ h => intro _; exact rnode (by simp) (by simp) (by simp) (by simp) (by simp) (by simp)
  | epoch => intro _; exact ⟨by simp, by simp, by simp, fun s n e => by cases e; omega, by simp, by simp⟩
  | time _ _ h => intro _; exact ⟨by simp, by simp, by simp, fun s n e => by cases e; omega, by simp, by simp⟩
  | none => intro _; exact rnode (by simp) (by simp) (by simp) (by simp) (by simp) (by simp)
  | some hn h ih => intro hf; exact rex_some (ih hf) (rmeans_notNone h hn)
  | hset ps h ih =>
    intro hf
    simp only [REx, Holds]
    refine ⟨rnode (by simp) (by simp) (by simp) (by simp) (by simp) (by simp), holdsAll_of fun v hv => ?_⟩
    have hf := floatsFiniteAll_iff.1 hf v hv
    obtain ⟨p, hp, rfl⟩ := List.mem_map.1 (firsts_mem.1 hv)
    exact ih p hp hf
  | bset ps h hr ih =>
    intro hf
    simp only [REx, Holds]
    refine ⟨rnode (by simp) (by simp) (by simp) (by simp) (by simp) (by simp), holdsAll_of fun v hv => ?_⟩
    have hf := floatsFiniteAll_iff.1 hf v hv
    obtain ⟨p, hp, rfl⟩ := List.mem_map.1 ((hr.2 v).1 hv)
    exact ih p hp hf
  | vec ps h ih =>
    intro hf
    simp only [REx, Holds]
    refine ⟨rnode (by simp) (by simp) (by simp) (by simp) (by simp) (by simp), holdsAll_of fun v hv => ?_⟩
    have hf := floatsFiniteAll_iff.1 hf v hv
    obtain ⟨p, hp, rfl⟩ := List.mem_map.1 hv
    exact ih p hp hf
  | linked ps h ih =>
    intro hf
    simp only [REx, Holds]
    refine ⟨rnode (by simp) (by simp) (by simp) (by simp) (by simp) (by simp), holdsAll_of fun v hv => ?_⟩
    have hf := floatsFiniteAll_iff.1 hf v hv
    obtain ⟨p, hp, rfl⟩ := List.mem_map.1 hv
    exact ih p hp hf
  | array ps hn h ih =>
    intro hf
    simp only [REx, Holds]
    refine ⟨rnode (by simp) (by simp) (by simp) (by simp) (by simp) (by simp), holdsAll_of fun v hv => ?_⟩
    have hf := floatsFiniteAll_iff.1 hf v hv
    obtain ⟨p, hp, rfl⟩ := List.mem_map.1 hv
    exact ih p hp hf
  | pair ps hn h ih =>
    intro hf
    simp only [REx, Holds]
    rw [← hn]
    exact ⟨rnode (by simp) (by simp) (by simp) (by simp) (by simp) (by simp), holdsTys_map fun p hp => ih p hp (floatsFiniteAll_iff.1 hf _ (List.mem_map.2 ⟨p, hp, rfl⟩))⟩
  | triple ps hn h ih =>
    intro hf
    simp only [REx, Holds]
    rw [← hn]
    exact ⟨rnode (by simp) (by simp) (by simp) (by simp) (by simp) (by simp), holdsTys_map fun p hp => ih p hp (floatsFiniteAll_iff.1 hf _ (List.mem_map.2 ⟨p, hp, rfl⟩))⟩
  | quad ps hn h ih =>
    intro hf
    simp only [REx, Holds]
    rw [← hn]
    exact ⟨rnode (by simp) (by simp) (by simp) (by simp) (by simp) (by simp), holdsTys_map fun p hp => ih p hp (floatsFiniteAll_iff.1 hf _ (List.mem_map.2 ⟨p, hp, rfl⟩))⟩
  | hmap ps h1 h2 hw hr ih1 ih2 =>
    intro hf
    simp only [REx, Holds]
    refine ⟨rnode (by simp) (by simp) (by simp) (by simp) (by simp) (by simp), holdsEntries_of fun e he => ?_⟩
    have hf := floatsFiniteAll_iff.1 hf e he
    obtain ⟨p, hp, rfl⟩ := List.mem_map.1 (lastWins_mem hw (pairwise_of_keys (hr ▸ firsts_pairwise _)) he).1
    simp only [Val.floatsFinite] at hf
    exact ⟨_, _, rfl, ih1 p hp hf.1, ih2 p hp hf.2⟩
  | bmap ps h1 h2 hw hr ih1 ih2 =>
    intro hf
    simp only [REx, Holds]
    refine ⟨rnode (by simp) (by simp) (by simp) (by simp) (by simp) (by simp), holdsEntries_of fun e he => ?_⟩
    have hf := floatsFiniteAll_iff.1 hf e he
    obtain ⟨p, hp, rfl⟩ := List.mem_map.1 (lastWins_mem hw (pairwise_of_lt_key hk hr) he).1
    simp only [Val.floatsFinite] at hf
    exact ⟨_, _, rfl, ih1 p hp hf.1, ih2 p hp hf.2⟩
  | box _ ih =>
    intro hf
    simp only [REx, Holds]
    exact ⟨rnode (by simp) (by simp) (by simp) (by simp) (by simp) (by simp), ih hf⟩
  | @struct i fs cd nul vs tr ps hd hg h ih =>
    intro hf
    simp only [REx, Holds]; rw [hd]
    exact ⟨rnode (by simp) (by simp) (by simp) (by simp) (by simp) (by simp), rmeans_field_exact hs (fun f hf => .inl ⟨i, fs, nul, hd, hf⟩) hg (.inl rfl) hf fun p hp f hf h1 h2 => ih p hp f hf h1 h2⟩
  | @tupleStruct i trans tr ps hd h ih =>
    intro hf
    simp only [REx, Holds]; rw [hd]
    exact ⟨rnode (by simp) (by simp) (by simp) (by simp) (by simp) (by simp), holdsTys_map fun p hp => ih p hp (floatsFiniteAll_iff.1 hf _ (List.mem_map.2 ⟨p, hp, rfl⟩))⟩
  | @variant i vars w j var hd hv hsh =>
    intro _
    replace hv := hv.1
    obtain ⟨nm, rn, sh⟩ := var
    cases hsh
    simp only [REx, Holds]; rw [hd]; simp only; rw [hv]
    exact ⟨rnode (by simp) (by simp) (by simp) (by simp) (by simp) (by simp), trivial⟩
  | @tupleVariant i vars w j var tr ps hd hv hsh h ih =>
    intro hf
    replace hv := hv.1
    obtain ⟨nm, rn, sh⟩ := var
    cases hsh
    simp only [REx, Holds]; rw [hd]; simp only; rw [hv]
    exact ⟨rnode (by simp) (by simp) (by simp) (by simp) (by simp) (by simp), holdsTys_map fun p hp => ih p hp (floatsFiniteAll_iff.1 hf _ (List.mem_map.2 ⟨p, hp, rfl⟩))⟩
  | @structVariant i vars w j var fs vs tr ps hd hv hsh hg h ih =>
    intro hf
    replace hv := hv.1
    have hff : ∀ f ∈ fs, FieldOf env false f := fun f hf =>
      .inr ⟨rfl, i, vars, var, fs, hd, List.mem_of_getElem? hv, hsh, hf⟩
    have hsk := ((hE i _ hd).2.2 var (List.mem_of_getElem? hv) fs hsh).2
    obtain ⟨nm, rn, sh⟩ := var
    cases hsh
    simp only [REx, Holds]; rw [hd]; simp only; rw [hv]
    exact ⟨rnode (by simp) (by simp) (by simp) (by simp) (by simp) (by simp), rmeans_field_exact hs hff hg (.inr fun f hf => (hsk f hf).1) hf fun p hp f hf h1 h2 => ih p hp f hf h1 h2⟩

theorem wordPair_notNone (hN : ∀ (i : Nat) vars, env.defs[i]? = some (.enum vars) → ∀ v ∈ vars, v.name ≠ ['N', 'o', 'n', 'e'])
    {t : Ty} {a b : List Char} {v : Val} (h : WordPair env t a b v) : a ≠ ['N', 'o', 'n', 'e'] → ¬ NoneForm env t v := by
  induction h with
  | epoch => intro h; exact absurd rfl h
  | none => intro h; exact absurd rfl h
  | some _ _ ih => intro h hn; cases hn with | some hn => exact ih h hn
  | box _ ih => intro h hn; cases hn with | box hn => exact ih h hn
  | variant hd _ hv hw _ _ =>
    intro h hn
    cases hn with
    | variant hd' hv' he => exact hN _ _ hd' _ (List.mem_of_getElem? hv') he
  | _ => intro _ hn; cases hn

theorem wordPair_exact' (hN : ∀ (i : Nat) vars, env.defs[i]? = some (.enum vars) → ∀ v ∈ vars, v.name ≠ ['N', 'o', 'n', 'e'])
    {t : Ty} {a b : List Char} {v : Val} (h : WordPair env t a b v) : REx env t v := by
  induction h with
  | true => exact rnode (by simp) (by simp) (by simp) (by simp) (by simp) (by simp)
  | false => exact rnode (by simp) (by simp) (by simp) (by simp) (by simp) (by simp)
  | epoch => exact ⟨by simp, by simp, by simp, fun s n e => by cases e; omega, by simp, by simp⟩
  | none => exact rnode (by simp) (by simp) (by simp) (by simp) (by simp) (by simp)
  | some hn h ih => exact rex_some ih (wordPair_notNone hN h hn)
  | box _ ih =>
    simp only [REx, Holds]
    exact ⟨rnode (by simp) (by simp) (by simp) (by simp) (by simp) (by simp), ih⟩
  | @variant i vars w w' j var hd _ hv _ _ hsh =>
    obtain ⟨nm, rn, sh⟩ := var
    cases hsh
    simp only [REx, Holds]; rw [hd]; simp only; rw [hv]
    exact ⟨rnode (by simp) (by simp) (by simp) (by simp) (by simp) (by simp), trivial⟩

end NS
