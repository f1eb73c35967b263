import Verif.Spec.Reread
import Verif.Spec.JsonWhole
import Verif.Spec.RonWhole
import Verif.Model.Json
import Verif.Model.Ron
import Verif.Lemmas.CollSpec
import Verif.Lemmas.Monad
/-! Values that come out of a text reader: typing and exactness. -/
set_option linter.unusedSimpArgs false
namespace NS
variable {env : Env} {fl : FloatOps}

section
set_option smartUnfolding false
theorem serJson_unlimited (env : Env) (fl : FloatOps) (t : Ty) (v : Val) : serJson env.unlimited fl t v = serJson env fl t v := by
  with_unfolding_all rfl
theorem deJson_unlimited (env : Env) (fl : FloatOps) (n : Nat) (t : Ty) : deJson env.unlimited fl n t = deJson env fl n t := by
  with_unfolding_all rfl
theorem serRon_unlimited (env : Env) (fl : FloatOps) (t : Ty) (v : Val) : serRon env.unlimited fl t v = serRon env fl t v := by
  with_unfolding_all rfl
theorem deRon_unlimited (env : Env) (fl : FloatOps) (n : Nat) (t : Ty) : deRon env.unlimited fl n t = deRon env fl n t := by
  with_unfolding_all rfl
theorem visits_unlimited (env : Env) (t : Ty) (v : Val) : visitsEmptyArray env.unlimited t v = visitsEmptyArray env t v := by
  with_unfolding_all rfl
theorem holds_unlimited (env : Env) (P : Ty → Val → Prop) (d : Field → Val) (b : Bool) (t : Ty) (v : Val) :
    Holds env.unlimited P d b t v = Holds env P d b t v := by
  with_unfolding_all rfl
end

theorem lawful_unlimited (h : LawfulKeys env) : LawfulKeys env.unlimited := ⟨h.eq_iff, h.lt_iff_gt, h.lt_trans, h.keyEq_iff⟩

/-! ### Lists -/

theorem subset_length {α : Type} {r l : List α} (hn : r.Pairwise (· ≠ ·)) (hs : ∀ x ∈ r, x ∈ l) : r.length ≤ l.length := by
  induction r generalizing l with
  | nil => simp
  | cons x r ih =>
    obtain ⟨a, b, rfl⟩ := List.append_of_mem (hs x (by simp))
    rw [List.pairwise_cons] at hn
    have := ih (l := a ++ b) hn.2 fun y hy => by
      have h1 := hs y (by simp [hy])
      have h2 := hn.1 y hy
      simp only [List.mem_append, List.mem_cons] at h1 ⊢
      rcases h1 with h | h | h
      · exact .inl h
      · exact absurd h.symm h2
      · exact .inr h
    simp only [List.length_cons, List.length_append] at this ⊢
    omega

theorem firsts_length (vs : List Val) : (firsts vs).length ≤ vs.length :=
  subset_length (firsts_pairwise vs) fun _ h => firsts_mem.1 h

theorem allTy_map {α : Type} {t : Ty} {ps : List α} {f : α → Val} (h : ∀ p ∈ ps, HasTy env t (f p)) : AllTy env t (ps.map f) := by
  rw [AllTy_iff]
  intro v hv
  obtain ⟨p, hp, rfl⟩ := List.mem_map.1 hv
  exact h p hp

theorem tysTy_map {α : Type} {ps : List α} {g : α → Ty} {f : α → Val} (h : ∀ p ∈ ps, HasTy env (g p) (f p)) :
    TysTy env (ps.map g) (ps.map f) := by
  induction ps with
  | nil => simp [TysTy]
  | cons p ps ih =>
    simp only [List.map_cons, TysTy]
    exact ⟨h p (by simp), ih fun q hq => h q (by simp [hq])⟩

theorem fieldsTy_of_get {fs : List Field} {vs : List Val} (hl : vs.length = fs.length)
    (h : ∀ (i : Nat) f w, fs[i]? = some f → vs[i]? = some w → HasTy env f.ty w) : FieldsTy env fs vs := by
  induction fs generalizing vs with
  | nil => cases vs with
    | nil => simp [FieldsTy]
    | cons => simp at hl
  | cons f fs ih => cases vs with
    | nil => simp at hl
    | cons v vs =>
      simp only [FieldsTy]
      exact ⟨h 0 f v rfl rfl, ih (by simpa using hl) fun i g w h1 h2 => h (i + 1) g w (by simpa using h1) (by simpa using h2)⟩

theorem entriesTy_of {k t : Ty} {r : List Val} (h : ∀ e ∈ r, ∃ a b, e = .entry a b ∧ HasTy env k a ∧ HasTy env t b) :
    EntriesTy env k t r := by
  induction r with
  | nil => simp [EntriesTy]
  | cons e r ih =>
    obtain ⟨a, b, rfl, h1, h2⟩ := h e (by simp)
    simp only [EntriesTy]
    exact ⟨h1, h2, ih fun q hq => h q (by simp [hq])⟩

/-- In a list of entries with distinct keys the value found under a key is that of its entry. -/
theorem mapGet_of_mem {r : List Val} (hE : ∀ e ∈ r, ∃ k v, e = Val.entry k v) (hp : r.Pairwise (fun a b => a.key ≠ b.key))
    {k v : Val} (h : .entry k v ∈ r) : mapGet k r = some v := by
  induction r with
  | nil => simp at h
  | cons e r ih =>
    obtain ⟨a, b, rfl⟩ := hE e (by simp)
    rw [List.pairwise_cons] at hp
    rcases List.mem_cons.1 h with h1 | h1
    · injection h1 with h2 h3
      subst h2; subst h3
      simp [mapGet]
    · have h2 := hp.1 _ h1
      have : a ≠ k := h2
      simp only [mapGet, if_neg this]
      exact ih (fun e he => hE e (by simp [he])) hp.2 h1

theorem mem_of_lastVal {es : List Val} {k v : Val} (h : lastVal k es = some v) : .entry k v ∈ es := by
  induction es with
  | nil => simp [lastVal] at h
  | cons e es ih =>
    cases e
    case entry a b =>
      simp only [lastVal] at h
      cases hl : lastVal k es with
      | some w =>
        rw [hl] at h
        simp only [Option.some.injEq] at h
        subst h
        exact List.mem_cons_of_mem _ (ih hl)
      | none =>
        rw [hl] at h
        simp only at h
        split at h
        · rename_i e; subst e; injection h with h; subst h; simp
        · cases h
    all_goals (simp only [lastVal] at h; exact List.mem_cons_of_mem _ (ih h))

theorem lastWins_mem {es r : List Val} (h : LastWins es r) (hp : r.Pairwise (fun a b => a.key ≠ b.key)) {e : Val} (he : e ∈ r) :
    e ∈ es ∧ ∃ k v, e = .entry k v := by
  obtain ⟨k, v, rfl⟩ := h.1 e he
  have h1 := mapGet_of_mem h.1 hp he
  rw [h.2 k] at h1
  exact ⟨mem_of_lastVal h1, k, v, rfl⟩

theorem pairwise_of_keys {r : List Val} (h : (r.map Val.key).Pairwise (· ≠ ·)) : r.Pairwise (fun a b => a.key ≠ b.key) :=
  List.pairwise_map.1 h

theorem pairwise_of_lt (hk : LawfulKeys env) {r : List Val} (h : r.Pairwise (fun a b => env.cmp a b = .lt)) : r.Pairwise (· ≠ ·) :=
  h.imp fun {a b} hlt e => by
    subst e
    have := (hk.eq_iff a a).2 rfl
    rw [this] at hlt; cases hlt

theorem pairwise_of_lt_key (hk : LawfulKeys env) {r : List Val} (h : r.Pairwise (fun a b => env.cmp a.key b.key = .lt)) :
    r.Pairwise (fun a b => a.key ≠ b.key) :=
  h.imp fun {a b} hlt e => by
    rw [e, (hk.eq_iff _ _).2 rfl] at hlt; cases hlt

theorem lastWins_length {es r : List Val} (h : LastWins es r) (hp : r.Pairwise (fun a b => a.key ≠ b.key)) : r.length ≤ es.length :=
  subset_length (hp.imp fun {a b} hne e => hne (by rw [e])) fun _ he => (lastWins_mem h hp he).1

/-! ### Numbers of lexemes -/

theorem comma_item {tr : Bool} {xs : List (List Lexeme)} {x : List Lexeme} (h : x ∈ xs) : x.length ≤ (commaLexemes tr xs).length := by
  induction xs with
  | nil => simp at h
  | cons y xs ih =>
    cases xs with
    | nil =>
      simp only [List.mem_singleton] at h
      subst h
      simp [commaLexemes]
    | cons z xs =>
      simp only [commaLexemes, List.length_append, List.length_cons]
      rcases List.mem_cons.1 h with rfl | h
      · omega
      · have := ih h; omega

theorem comma_count (tr : Bool) (xs : List (List Lexeme)) : xs.length ≤ (commaLexemes tr xs).length + 1 := by
  induction xs with
  | nil => simp
  | cons y xs ih =>
    cases xs with
    | nil => simp
    | cons z xs =>
      simp only [commaLexemes, List.length_append, List.length_cons] at ih ⊢
      omega

theorem inBlocks_item {tr : Bool} {xs : List (List Lexeme)} {x : List Lexeme} (h : x ∈ xs) : x.length ≤ (inBlocks tr xs).length := by
  have := comma_item (tr := tr) h
  simp only [inBlocks, List.length_cons, List.length_append]
  omega
theorem inCurlies_item {tr : Bool} {xs : List (List Lexeme)} {x : List Lexeme} (h : x ∈ xs) : x.length ≤ (inCurlies tr xs).length := by
  have := comma_item (tr := tr) h
  simp only [inCurlies, List.length_cons, List.length_append]
  omega
theorem inBlocks_count (tr : Bool) (xs : List (List Lexeme)) : xs.length ≤ (inBlocks tr xs).length := by
  have := comma_count tr xs
  simp only [inBlocks, List.length_cons, List.length_append]
  omega
theorem inCurlies_count (tr : Bool) (xs : List (List Lexeme)) : xs.length ≤ (inCurlies tr xs).length := by
  have := comma_count tr xs
  simp only [inCurlies, List.length_cons, List.length_append]
  omega

/-! ### Typing, JSON -/

theorem jsays_field {fs : List Field} {cd : Bool} {ps : List (Member (List Lexeme))} {vs : List Val} {L : Nat}
    (hs : SaneText env) (hf : ∀ f ∈ fs, FieldOf env cd f) (hg : JFieldsGet cd fs ps vs)
    (hL : ∀ p ∈ ps, p.2.1.length ≤ L)
    (ih : ∀ p ∈ ps, ∀ f ∈ fs, f.skip = false → f.jsonName = p.1 → p.2.1.length ≤ u64Max → HasTy env.unlimited f.readTy p.2.2)
    (hl : L ≤ u64Max) : FieldsTy env.unlimited fs vs := by
  refine fieldsTy_of_get hg.2.1 fun i f w h1 h2 => ?_
  have hm := List.mem_of_getElem? h1
  have h := hg.2.2 i f w h1 h2
  unfold JFieldGets at h
  split at h
  · rename_i hsk
    subst h
    exact hs.absent cd f (hf f hm) (.inl hsk)
  · rename_i hsk
    have hsk : f.skip = false := by simpa using hsk
    rcases h with ⟨a, p, b, rfl, h3, _, rfl⟩ | ⟨_, h3, rfl⟩
    · have h4 := ih p (by simp) f hm hsk h3.symm (Nat.le_trans (hL p (by simp)) hl)
      unfold Field.wrap
      unfold Field.readTy at h4
      split
      · rename_i h5 h6
        rw [h5, h6] at h4
        simpa only [h6, HasTy] using h4
      · rename_i h5
        have : f.readTy = f.ty := by
          unfold Field.readTy
          split
          · rename_i h6 h7; exact absurd h7 (h5 _ h6)
          · rfl
        have h4' : HasTy env.unlimited f.readTy p.2.2 := h4
        rwa [this] at h4'
    · exact hs.absent cd f (hf f hm) h3

theorem jsays_typed (hk : LawfulKeys env) (hs : SaneText env) {t : Ty} {ls : List Lexeme} {v : Val} (h : JsonSays env fl t ls v) :
    ls.length ≤ u64Max → HasTy env.unlimited t v := by
  induction h with
  | unit => intro _; simp [HasTy]
  | true => intro _; simp [HasTy]
  | false => intro _; simp [HasTy]
  | int _ _ h _ => intro _; simpa [HasTy] using h
  | intWrap _ _ _ _ h _ => intro _; simpa [HasTy] using h
  | f32 => intro _; simp [HasTy]
  | f64 => intro _; simp [HasTy]
  | str => intro _; simp [HasTy]
  | dur _ _ h => intro _; simp only [HasTy]; exact ⟨h, Nat.mod_lt _ (by decide)⟩
  | epoch => intro _; simp [HasTy]
  | time _ _ h => intro _; simp only [HasTy]; exact ⟨by omega, by omega, Nat.mod_lt _ (by decide)⟩
  | none => intro _; simp [HasTy]
  | some _ _ ih => intro hl; simpa only [HasTy] using ih hl
  | @vec t tr ps h ih =>
    intro hl
    simp only [HasTy]
    refine ⟨allTy_map fun p hp => ih p hp (Nat.le_trans (inBlocks_item (List.mem_map.2 ⟨p, hp, rfl⟩)) hl), ?_, by simp [Env.unlimited]⟩
    have := inBlocks_count tr (ps.map (·.1))
    simp only [List.length_map] at this ⊢
    omega
  | @linked t tr ps h ih =>
    intro hl
    simp only [HasTy]
    refine ⟨allTy_map fun p hp => ih p hp (Nat.le_trans (inBlocks_item (List.mem_map.2 ⟨p, hp, rfl⟩)) hl), ?_⟩
    have := inBlocks_count tr (ps.map (·.1))
    simp only [List.length_map] at this ⊢
    omega
  | @hset t tr ps h ih =>
    intro hl
    simp only [HasTy]
    refine ⟨?_, ?_, rfl, firsts_pairwise _⟩
    · rw [AllTy_iff]
      intro v hv
      obtain ⟨p, hp, rfl⟩ := List.mem_map.1 (firsts_mem.1 hv)
      exact ih p hp (Nat.le_trans (inBlocks_item (List.mem_map.2 ⟨p, hp, rfl⟩)) hl)
    · have := inBlocks_count tr (ps.map (·.1))
      have h2 := firsts_length (ps.map (·.2))
      simp only [List.length_map] at this h2
      omega
  | @bset t tr r ps h hr ih =>
    intro hl
    simp only [HasTy]
    refine ⟨?_, ?_, hr.1⟩
    · rw [AllTy_iff]
      intro v hv
      obtain ⟨p, hp, rfl⟩ := List.mem_map.1 ((hr.2 v).1 hv)
      exact ih p hp (Nat.le_trans (inBlocks_item (List.mem_map.2 ⟨p, hp, rfl⟩)) hl)
    · have := inBlocks_count tr (ps.map (·.1))
      have h2 := subset_length (pairwise_of_lt hk hr.1) fun x hx => (hr.2 x).1 hx
      simp only [List.length_map] at this h2
      omega
  | @array t n tr ps hn h ih =>
    intro hl
    simp only [HasTy]
    exact ⟨allTy_map fun p hp => ih p hp (Nat.le_trans (inBlocks_item (List.mem_map.2 ⟨p, hp, rfl⟩)) hl), by simpa using hn⟩
  | @pair a b tr ps hn h ih =>
    intro hl
    simp only [HasTy]
    rw [← hn]
    exact tysTy_map fun p hp => ih p hp (Nat.le_trans (inBlocks_item (List.mem_map.2 ⟨p, hp, rfl⟩)) hl)
  | @triple a b c tr ps hn h ih =>
    intro hl
    simp only [HasTy]
    rw [← hn]
    exact tysTy_map fun p hp => ih p hp (Nat.le_trans (inBlocks_item (List.mem_map.2 ⟨p, hp, rfl⟩)) hl)
  | @quad a b c d tr ps hn h ih =>
    intro hl
    simp only [HasTy]
    rw [← hn]
    exact tysTy_map fun p hp => ih p hp (Nat.le_trans (inBlocks_item (List.mem_map.2 ⟨p, hp, rfl⟩)) hl)
  | @hmap k t tr r ps h1 h2 hw hr ih1 ih2 =>
    intro hl
    simp only [HasTy]
    have hp : r.Pairwise (fun a b => a.key ≠ b.key) := pairwise_of_keys (hr ▸ firsts_pairwise _)
    refine ⟨?_, ?_, rfl, hp⟩
    · refine entriesTy_of fun e he => ?_
      obtain ⟨p, hp, rfl⟩ := List.mem_map.1 (lastWins_mem hw hp he).1
      have hlen := Nat.le_trans (inCurlies_item (tr := tr) (List.mem_map.2 ⟨p, hp, rfl⟩)) hl
      simp only [List.length_append, List.length_cons] at hlen
      exact ⟨_, _, rfl, ih1 p hp (by omega), ih2 p hp (by omega)⟩
    · have := inCurlies_count tr (ps.map fun p => p.1.1 ++ .punct .colon :: p.2.1)
      have h2 := lastWins_length hw hp
      simp only [List.length_map] at this h2
      omega
  | @bmap k t tr r ps h1 h2 hw hr ih1 ih2 =>
    intro hl
    simp only [HasTy]
    have hp := pairwise_of_lt_key hk hr
    refine ⟨?_, ?_, hr⟩
    · refine entriesTy_of fun e he => ?_
      obtain ⟨p, hp, rfl⟩ := List.mem_map.1 (lastWins_mem hw hp he).1
      have hlen := Nat.le_trans (inCurlies_item (tr := tr) (List.mem_map.2 ⟨p, hp, rfl⟩)) hl
      simp only [List.length_append, List.length_cons] at hlen
      exact ⟨_, _, rfl, ih1 p hp (by omega), ih2 p hp (by omega)⟩
    · have := inCurlies_count tr (ps.map fun p => p.1.1 ++ .punct .colon :: p.2.1)
      have h2 := lastWins_length hw hp
      simp only [List.length_map] at this h2
      omega
  | box _ ih => intro hl; simpa only [HasTy] using ih hl
  | @struct i fs cd nul vs tr ps hd hg h _ ih =>
    intro hl
    have : HasTy env.unlimited (.named i) (.struct vs) = FieldsTy env.unlimited fs vs := by
      simp only [HasTy]; rw [show env.unlimited.defs[i]? = some (.struct fs cd nul) from hd]
    rw [this]
    refine jsays_field hs (fun f hf => .inl ⟨i, fs, nul, hd, hf⟩) hg (L := (inCurlies tr (ps.map Member.lexemes)).length) ?_ ih hl
    intro p hp
    have := inCurlies_item (tr := tr) (List.mem_map.2 ⟨p, hp, rfl⟩ : Member.lexemes p ∈ ps.map Member.lexemes)
    simp only [Member.lexemes, List.length_cons] at this
    omega
  | @noFields i trans hd =>
    intro _
    simp only [HasTy]; rw [show env.unlimited.defs[i]? = _ from hd]; simp [TysTy]
  | @transparent i t ls v hd h ih =>
    intro hl
    simp only [HasTy]; rw [show env.unlimited.defs[i]? = _ from hd]; simp only [TysTy]
    exact ⟨ih hl, trivial⟩
  | @newtype i t ls v hd h ih =>
    intro hl
    simp only [HasTy]; rw [show env.unlimited.defs[i]? = _ from hd]; simp only [TysTy]
    exact ⟨ih (Nat.le_trans (inBlocks_item (by simp)) hl), trivial⟩
  | @tupleStruct i trans tr ps hd _ h ih =>
    intro hl
    simp only [HasTy]; rw [show env.unlimited.defs[i]? = _ from hd]; simp only
    exact tysTy_map fun p hp => ih p hp (Nat.le_trans (inBlocks_item (List.mem_map.2 ⟨p, hp, rfl⟩)) hl)
  | @variant i vars j var hd hv hsh =>
    intro _
    obtain ⟨nm, rn, sh⟩ := var
    cases hsh
    simp only [HasTy]; rw [show env.unlimited.defs[i]? = _ from hd]; simp only; rw [hv]; exact trivial
  | @tupleVariant i vars j var tr ps hd hv hsh h ih =>
    intro hl
    obtain ⟨nm, rn, sh⟩ := var
    cases hsh
    simp only [HasTy]; rw [show env.unlimited.defs[i]? = _ from hd]; simp only; rw [hv]
    refine tysTy_map fun p hp => ih p hp ?_
    have h1 := Nat.le_trans (inCurlies_item (List.mem_singleton.2 rfl)) hl
    have h2 := inBlocks_item (tr := tr) (List.mem_map.2 ⟨p, hp, rfl⟩ : p.2.1 ∈ ps.map (·.2.1))
    simp only [List.length_cons] at h1
    omega
  | @structVariant i vars j var fs vs tr ps hd hv hsh hg h _ ih =>
    intro hl
    have hf : ∀ f ∈ fs, FieldOf env false f := fun f hf =>
      .inr ⟨rfl, i, vars, var, fs, hd, List.mem_of_getElem? hv, hsh, hf⟩
    obtain ⟨nm, rn, sh⟩ := var
    cases hsh
    simp only [HasTy]; rw [show env.unlimited.defs[i]? = _ from hd]; simp only; rw [hv]
    refine jsays_field hs hf hg (L := (inCurlies tr (ps.map Member.lexemes)).length) ?_ ih ?_
    · intro p hp
      have := inCurlies_item (tr := tr) (List.mem_map.2 ⟨p, hp, rfl⟩ : Member.lexemes p ∈ ps.map Member.lexemes)
      simp only [Member.lexemes, List.length_cons] at this
      omega
    · have h1 := Nat.le_trans (inCurlies_item (List.mem_singleton.2 rfl)) hl
      simp only [List.length_cons] at h1
      omega
  | @proxied i px ls p hd h ih =>
    intro hl
    simp only [HasTy]; rw [show env.unlimited.proxies[i]? = _ from hd]; simp only
    have := hs.proxies i px p hd (ih hl)
    exact ⟨this.1, trivial, this.2⟩

theorem strPair_typed (hs : SaneText env) {t : Ty} {a b : List Char} {v : Val} (h : StrPair env t a b v) : HasTy env.unlimited t v := by
  induction h with
  | str => simp [HasTy]
  | some _ ih => simpa only [HasTy] using ih
  | box _ ih => simpa only [HasTy] using ih
  | @transparent i t a b v hd h ih =>
    simp only [HasTy]; rw [show env.unlimited.defs[i]? = _ from hd]; simp only [TysTy]
    exact ⟨ih, trivial⟩
  | @proxied i px a b p hd h ih =>
    simp only [HasTy]; rw [show env.unlimited.proxies[i]? = _ from hd]; simp only
    have := hs.proxies i px p hd ih
    exact ⟨this.1, trivial, this.2⟩
  | @variant i vars j var a hd hv hsh =>
    obtain ⟨nm, rn, sh⟩ := var
    cases hsh
    simp only [HasTy]; rw [show env.unlimited.defs[i]? = _ from hd]; simp only; rw [hv]; exact trivial

/-! ### Exactness, JSON -/

theorem floatsFiniteAll_iff {vs : List Val} : floatsFiniteAll vs ↔ ∀ v ∈ vs, v.floatsFinite := by
  induction vs with
  | nil => simp [floatsFiniteAll]
  | cons v vs ih => simp [floatsFiniteAll, ih]

section
variable {P : Ty → Val → Prop} {dflt : Field → Val} {siv : Bool}

theorem holdsAll_of {t : Ty} {vs : List Val} (h : ∀ v ∈ vs, Holds env P dflt siv t v) : HoldsAll env P dflt siv t vs := by
  induction vs with
  | nil => simp [HoldsAll]
  | cons v vs ih =>
    simp only [HoldsAll]
    exact ⟨h v (by simp), ih fun w hw => h w (by simp [hw])⟩

theorem holdsTys_map {α : Type} {ps : List α} {g : α → Ty} {f : α → Val} (h : ∀ p ∈ ps, Holds env P dflt siv (g p) (f p)) :
    HoldsTys env P dflt siv (ps.map g) (ps.map f) := by
  induction ps with
  | nil => simp [HoldsTys]
  | cons p ps ih =>
    simp only [List.map_cons, HoldsTys]
    exact ⟨h p (by simp), ih fun q hq => h q (by simp [hq])⟩

theorem holdsEntries_of {k t : Ty} {r : List Val}
    (h : ∀ e ∈ r, ∃ a b, e = .entry a b ∧ Holds env P dflt siv k a ∧ Holds env P dflt siv t b) : HoldsEntries env P dflt siv k t r := by
  induction r with
  | nil => simp [HoldsEntries]
  | cons e r ih =>
    obtain ⟨a, b, rfl, h1, h2⟩ := h e (by simp)
    simp only [HoldsEntries]
    exact ⟨h1, h2, ih fun q hq => h q (by simp [hq])⟩

theorem holdsFields_of_get {us : Bool} {fs : List Field} {vs : List Val}
    (h : ∀ (i : Nat) f w, fs[i]? = some f → vs[i]? = some w →
      if us ∧ f.skip then w = dflt f else Holds env P dflt siv f.ty w) : HoldsFields env P dflt siv us fs vs := by
  induction fs generalizing vs with
  | nil => cases vs <;> simp [HoldsFields]
  | cons f fs ih => cases vs with
    | nil => simp [HoldsFields]
    | cons v vs =>
      simp only [HoldsFields]
      exact ⟨h 0 f v rfl rfl, ih fun i g w h1 h2 => h (i + 1) g w (by simpa using h1) (by simpa using h2)⟩

end

abbrev JEx (env : Env) (t : Ty) (v : Val) : Prop := Holds env (JsonNodeOk env) Field.absent false t v

theorem jnode {t : Ty} {w : Val} (h1 : ∀ k, t ≠ .int k) (h2 : ∀ x, w ≠ .f64 x) (h3 : ∀ x, w ≠ .f32 x) (h4 : ∀ s n, w ≠ .time s n)
    (h5 : ∀ w', w ≠ .some w') : JsonNodeOk env t w :=
  ⟨fun k e => absurd e (h1 k), fun x e => absurd e (h2 x), fun x e => absurd e (h3 x), fun s n e => absurd e (h4 s n),
    fun _ w' _ e => absurd e (h5 w')⟩

theorem jex_some {t : Ty} {v : Val} (h : JEx env t v) (hn : ¬ NullForm env t v) : JEx env (.option t) (.some v) := by
  simp only [JEx, Holds]
  exact ⟨⟨by simp, by simp, by simp, by simp, fun t' w' e1 e2 => by cases e1; cases e2; exact hn⟩, h⟩

theorem jsays_field_exact {fs : List Field} {cd us : Bool} {ps : List (Member (List Lexeme))} {vs : List Val}
    (hs : JsonSaneText env) (hf : ∀ f ∈ fs, FieldOf env cd f) (hg : JFieldsGet cd fs ps vs)
    (hus : us = true ∨ ∀ f ∈ fs, f.skip = false) (hfin : floatsFiniteAll vs)
    (ih : ∀ p ∈ ps, ∀ f ∈ fs, f.skip = false → f.jsonName = p.1 → p.2.2.floatsFinite → JEx env f.readTy p.2.2) :
    HoldsFields env (JsonNodeOk env) Field.absent false us fs vs := by
  refine holdsFields_of_get fun i f w h1 h2 => ?_
  have hm := List.mem_of_getElem? h1
  have hw := floatsFiniteAll_iff.1 hfin w (List.mem_of_getElem? h2)
  have h := hg.2.2 i f w h1 h2
  unfold JFieldGets at h
  by_cases hsk : f.skip = true
  · rw [if_pos hsk] at h
    rcases hus with rfl | hus
    · rw [if_pos ⟨rfl, hsk⟩]; exact h
    · rw [hus f hm] at hsk; cases hsk
  · rw [if_neg hsk] at h
    rw [if_neg fun h => hsk h.2]
    have hsk : f.skip = false := by simpa using hsk
    rcases h with ⟨a, p, b, rfl, h3, _, rfl⟩ | ⟨_, h3, rfl⟩
    · have h4 := fun hfin => ih p (by simp) f hm hsk h3.symm hfin
      unfold Field.wrap at hw ⊢
      split
      · rename_i t1 h5 h6
        have hr : f.readTy = t1 := by
          unfold Field.readTy; rw [h5, h6]
        rw [hr] at h4
        rw [h6]
        have hnull := hs.optProxy cd f (hf f hm) h5 p.2.2
        rw [hr] at hnull
        simp only [h5, h6, Val.floatsFinite] at hw
        exact jex_some (h4 hw) hnull
      · rename_i h5
        have hr : f.readTy = f.ty := by
          unfold Field.readTy
          split
          · rename_i h6 h7; exact absurd h7 (h5 _ h6)
          · rfl
        rw [hr] at h4
        refine h4 ?_
        split at hw
        · rename_i h6 h7; exact absurd h7 (h5 _ h6)
        · exact hw
    · exact hs.absentExact cd f (hf f hm) h3 hsk hw

theorem jsays_notNull (hk : LawfulKeys env) (hs : JsonSaneText env) {t : Ty} {ls : List Lexeme} {v : Val} (h : JsonSays env fl t ls v) :
    ls.length ≤ u64Max → ls.head? ≠ some (.word ['n', 'u', 'l', 'l']) → ¬ NullForm env t v := by
  induction h with
  | unit => intro _ h; exact absurd rfl h
  | none => intro _ h; exact absurd rfl h
  | epoch => intro _ h; exact absurd rfl h
  | time => intro _ _ hn; cases hn; omega
  | some _ _ ih => intro hl h hn; cases hn with | some hn => exact ih hl h hn
  | box _ ih => intro hl h hn; cases hn with | box hn => exact ih hl h hn
  | transparent hd _ ih =>
    intro hl h hn
    cases hn with
    | transparent hd' hn =>
      rw [hd] at hd'; cases hd'
      exact ih hl h hn
  | newtype hd _ _ =>
    intro _ _ hn
    cases hn with
    | transparent hd' hn => rw [hd] at hd'; cases hd'
  | struct ps hd _ _ =>
    intro _ _ hn
    generalize hv : Val.struct _ = v at hn
    cases hn with
    | transparent hd' hn => rw [hd] at hd'; cases hd'
    | _ => cases hv
  | tupleStruct ps hd h2 _ _ =>
    intro _ _ hn
    generalize hv : Val.struct _ = v at hn
    cases hn with
    | transparent hd' hn =>
      rw [hd] at hd'
      injection hd' with hd'
      injection hd' with hd' _
      have := congrArg List.length hd'
      simp at this
      omega
    | _ => cases hv
  | @proxied i px ls p hd h ih =>
    intro hl hne hn
    cases hn with
    | proxied hd' hn =>
      rw [hd] at hd'; cases hd'
      exact ih hl hne ((hs.proxiesExact i px p hd (jsays_typed hk hs.toSaneText h hl)).2.2 hn)
  | _ => intro _ _ hn; cases hn

theorem jsays_exact (hk : LawfulKeys env) (hE : JsonEnvOk env) (hs : JsonSaneText env) {t : Ty} {ls : List Lexeme} {v : Val}
    (h : JsonSays env fl t ls v) : ls.length ≤ u64Max → v.floatsFinite → JEx env t v := by
  induction h with
  | int h1 _ _ _ => intro _ _; exact ⟨fun k e => by cases e; exact h1, by simp, by simp, by simp, by simp⟩
  | intWrap h1 _ _ _ _ _ => intro _ _; exact ⟨fun k e => by cases e; exact h1, by simp, by simp, by simp, by simp⟩
  | f32 => intro _ hf; exact ⟨by simp, by simp, fun x e => by cases e; exact hf, by simp, by simp⟩
  | f64 => intro _ hf; exact ⟨by simp, fun x e => by cases e; exact hf, by simp, by simp, by simp⟩
  | unit => intro _ _; exact jnode (by simp) (by simp) (by simp) (by simp) (by simp)
  | true => intro _ _; exact jnode (by simp) (by simp) (by simp) (by simp) (by simp)
  | false => intro _ _; exact jnode (by simp) (by simp) (by simp) (by simp) (by simp)
  | str => intro _ _; exact jnode (by simp) (by simp) (by simp) (by simp) (by simp)
  | dur _ _ h => intro _ _; exact jnode (by simp) (by simp) (by simp) (by simp) (by simp)
  | epoch => intro _ _; exact ⟨by simp, by simp, by simp, fun s n e => by cases e; omega, by simp⟩
  | time _ _ h => intro _ _; exact ⟨by simp, by simp, by simp, fun s n e => by cases e; omega, by simp⟩
  | none => intro _ _; exact jnode (by simp) (by simp) (by simp) (by simp) (by simp)
  | some hn h ih => intro hl hf; exact jex_some (ih hl hf) (jsays_notNull hk hs h hl hn)
  | @vec t tr ps h ih =>
    intro hl hf
    simp only [JEx, Holds]
    refine ⟨jnode (by simp) (by simp) (by simp) (by simp) (by simp), holdsAll_of fun v hv => ?_⟩
    have hf := floatsFiniteAll_iff.1 hf v hv
    obtain ⟨p, hp, rfl⟩ := List.mem_map.1 hv
    exact ih p hp (Nat.le_trans (inBlocks_item (List.mem_map.2 ⟨p, hp, rfl⟩)) hl) hf
  | @linked t tr ps h ih =>
    intro hl hf
    simp only [JEx, Holds]
    refine ⟨jnode (by simp) (by simp) (by simp) (by simp) (by simp), holdsAll_of fun v hv => ?_⟩
    have hf := floatsFiniteAll_iff.1 hf v hv
    obtain ⟨p, hp, rfl⟩ := List.mem_map.1 hv
    exact ih p hp (Nat.le_trans (inBlocks_item (List.mem_map.2 ⟨p, hp, rfl⟩)) hl) hf
  | @hset t tr ps h ih =>
    intro hl hf
    simp only [JEx, Holds]
    refine ⟨jnode (by simp) (by simp) (by simp) (by simp) (by simp), holdsAll_of fun v hv => ?_⟩
    have hf := floatsFiniteAll_iff.1 hf v hv
    obtain ⟨p, hp, rfl⟩ := List.mem_map.1 (firsts_mem.1 hv)
    exact ih p hp (Nat.le_trans (inBlocks_item (List.mem_map.2 ⟨p, hp, rfl⟩)) hl) hf
  | @bset t tr r ps h hr ih =>
    intro hl hf
    simp only [JEx, Holds]
    refine ⟨jnode (by simp) (by simp) (by simp) (by simp) (by simp), holdsAll_of fun v hv => ?_⟩
    have hf := floatsFiniteAll_iff.1 hf v hv
    obtain ⟨p, hp, rfl⟩ := List.mem_map.1 ((hr.2 v).1 hv)
    exact ih p hp (Nat.le_trans (inBlocks_item (List.mem_map.2 ⟨p, hp, rfl⟩)) hl) hf
  | @array t n tr ps hn h ih =>
    intro hl hf
    simp only [JEx, Holds]
    refine ⟨jnode (by simp) (by simp) (by simp) (by simp) (by simp), holdsAll_of fun v hv => ?_⟩
    have hf := floatsFiniteAll_iff.1 hf v hv
    obtain ⟨p, hp, rfl⟩ := List.mem_map.1 hv
    exact ih p hp (Nat.le_trans (inBlocks_item (List.mem_map.2 ⟨p, hp, rfl⟩)) hl) hf
  | @pair a b tr ps hn h ih =>
    intro hl hf
    simp only [JEx, Holds]
    rw [← hn]
    exact ⟨jnode (by simp) (by simp) (by simp) (by simp) (by simp), holdsTys_map fun p hp =>
      ih p hp (Nat.le_trans (inBlocks_item (List.mem_map.2 ⟨p, hp, rfl⟩)) hl) (floatsFiniteAll_iff.1 hf _ (List.mem_map.2 ⟨p, hp, rfl⟩))⟩
  | @triple a b c tr ps hn h ih =>
    intro hl hf
    simp only [JEx, Holds]
    rw [← hn]
    exact ⟨jnode (by simp) (by simp) (by simp) (by simp) (by simp), holdsTys_map fun p hp =>
      ih p hp (Nat.le_trans (inBlocks_item (List.mem_map.2 ⟨p, hp, rfl⟩)) hl) (floatsFiniteAll_iff.1 hf _ (List.mem_map.2 ⟨p, hp, rfl⟩))⟩
  | @quad a b c d tr ps hn h ih =>
    intro hl hf
    simp only [JEx, Holds]
    rw [← hn]
    exact ⟨jnode (by simp) (by simp) (by simp) (by simp) (by simp), holdsTys_map fun p hp =>
      ih p hp (Nat.le_trans (inBlocks_item (List.mem_map.2 ⟨p, hp, rfl⟩)) hl) (floatsFiniteAll_iff.1 hf _ (List.mem_map.2 ⟨p, hp, rfl⟩))⟩
  | @hmap k t tr r ps h1 h2 hw hr ih1 ih2 =>
    intro hl hf
    simp only [JEx, Holds]
    have hp : r.Pairwise (fun a b => a.key ≠ b.key) := pairwise_of_keys (hr ▸ firsts_pairwise _)
    refine ⟨jnode (by simp) (by simp) (by simp) (by simp) (by simp), holdsEntries_of fun e he => ?_⟩
    have hf := floatsFiniteAll_iff.1 hf e he
    obtain ⟨p, hp, rfl⟩ := List.mem_map.1 (lastWins_mem hw hp he).1
    have hlen := Nat.le_trans (inCurlies_item (tr := tr) (List.mem_map.2 ⟨p, hp, rfl⟩)) hl
    simp only [List.length_append, List.length_cons] at hlen
    simp only [Val.floatsFinite] at hf
    exact ⟨_, _, rfl, ih1 p hp (by omega) hf.1, ih2 p hp (by omega) hf.2⟩
  | @bmap k t tr r ps h1 h2 hw hr ih1 ih2 =>
    intro hl hf
    simp only [JEx, Holds]
    have hp := pairwise_of_lt_key hk hr
    refine ⟨jnode (by simp) (by simp) (by simp) (by simp) (by simp), holdsEntries_of fun e he => ?_⟩
    have hf := floatsFiniteAll_iff.1 hf e he
    obtain ⟨p, hp, rfl⟩ := List.mem_map.1 (lastWins_mem hw hp he).1
    have hlen := Nat.le_trans (inCurlies_item (tr := tr) (List.mem_map.2 ⟨p, hp, rfl⟩)) hl
    simp only [List.length_append, List.length_cons] at hlen
    simp only [Val.floatsFinite] at hf
    exact ⟨_, _, rfl, ih1 p hp (by omega) hf.1, ih2 p hp (by omega) hf.2⟩
  | box _ ih =>
    intro hl hf
    simp only [JEx, Holds]
    exact ⟨jnode (by simp) (by simp) (by simp) (by simp) (by simp), ih hl hf⟩
  | @struct i fs cd nul vs tr ps hd hg h _ ih =>
    intro hl hf
    simp only [JEx, Holds]; rw [hd]
    refine ⟨jnode (by simp) (by simp) (by simp) (by simp) (by simp), ?_⟩
    refine jsays_field_exact hs (fun f hf => .inl ⟨i, fs, nul, hd, hf⟩) hg (.inl rfl) hf fun p hp f hf h1 h2 => ih p hp f hf h1 h2 ?_
    have := inCurlies_item (tr := tr) (List.mem_map.2 ⟨p, hp, rfl⟩ : Member.lexemes p ∈ ps.map Member.lexemes)
    simp only [Member.lexemes, List.length_cons] at this
    have h0 := Nat.le_trans this (show _ ≤ u64Max from hl)
    omega
  | @noFields i trans hd =>
    intro _ _
    simp only [JEx, Holds]; rw [hd]
    exact ⟨jnode (by simp) (by simp) (by simp) (by simp) (by simp), by simp [HoldsTys]⟩
  | @transparent i t ls v hd h ih =>
    intro hl hf
    simp only [JEx, Holds]; rw [hd]; simp only [HoldsTys]
    exact ⟨jnode (by simp) (by simp) (by simp) (by simp) (by simp), ih hl hf.1, trivial⟩
  | @newtype i t ls v hd h ih =>
    intro hl hf
    simp only [JEx, Holds]; rw [hd]; simp only [HoldsTys]
    exact ⟨jnode (by simp) (by simp) (by simp) (by simp) (by simp), ih (Nat.le_trans (inBlocks_item (by simp)) hl) hf.1, trivial⟩
  | @tupleStruct i trans tr ps hd _ h ih =>
    intro hl hf
    simp only [JEx, Holds]; rw [hd]
    exact ⟨jnode (by simp) (by simp) (by simp) (by simp) (by simp), holdsTys_map fun p hp =>
      ih p hp (Nat.le_trans (inBlocks_item (List.mem_map.2 ⟨p, hp, rfl⟩)) hl) (floatsFiniteAll_iff.1 hf _ (List.mem_map.2 ⟨p, hp, rfl⟩))⟩
  | @variant i vars j var hd hv hsh =>
    intro _ _
    obtain ⟨nm, rn, sh⟩ := var
    cases hsh
    simp only [JEx, Holds]; rw [hd]; simp only; rw [hv]
    exact ⟨jnode (by simp) (by simp) (by simp) (by simp) (by simp), trivial⟩
  | @tupleVariant i vars j var tr ps hd hv hsh h ih =>
    intro hl hf
    obtain ⟨nm, rn, sh⟩ := var
    cases hsh
    simp only [JEx, Holds]; rw [hd]; simp only; rw [hv]
    refine ⟨jnode (by simp) (by simp) (by simp) (by simp) (by simp), holdsTys_map fun p hp =>
      ih p hp ?_ (floatsFiniteAll_iff.1 hf _ (List.mem_map.2 ⟨p, hp, rfl⟩))⟩
    have h1 := Nat.le_trans (inCurlies_item (List.mem_singleton.2 rfl)) hl
    have h2 := inBlocks_item (tr := tr) (List.mem_map.2 ⟨p, hp, rfl⟩ : p.2.1 ∈ ps.map (·.2.1))
    simp only [List.length_cons] at h1
    omega
  | @structVariant i vars j var fs vs tr ps hd hv hsh hg h _ ih =>
    intro hl hf
    have hff : ∀ f ∈ fs, FieldOf env false f := fun f hf =>
      .inr ⟨rfl, i, vars, var, fs, hd, List.mem_of_getElem? hv, hsh, hf⟩
    have hsk := ((hE i _ hd).2.2 var (List.mem_of_getElem? hv) fs hsh).noSkip
    obtain ⟨nm, rn, sh⟩ := var
    cases hsh
    simp only [JEx, Holds]; rw [hd]; simp only; rw [hv]
    refine ⟨jnode (by simp) (by simp) (by simp) (by simp) (by simp), ?_⟩
    refine jsays_field_exact hs hff hg (.inr hsk) hf fun p hp f hf h1 h2 => ih p hp f hf h1 h2 ?_
    have h3 := inCurlies_item (tr := tr) (List.mem_map.2 ⟨p, hp, rfl⟩ : Member.lexemes p ∈ ps.map Member.lexemes)
    have h4 := Nat.le_trans (inCurlies_item (List.mem_singleton.2 rfl)) hl
    simp only [Member.lexemes, List.length_cons] at h3 h4
    have h5 : p.2.1.length + 1 + 1 ≤ _ := h3
    have h6 := Nat.le_trans h5 (Nat.le_trans (Nat.le_succ _) (Nat.le_trans (Nat.le_succ _) h4))
    omega
  | @proxied i px ls p hd h ih =>
    intro hl hf
    simp only [JEx, Holds]; rw [hd]; simp only
    have := hs.proxiesExact i px p hd (jsays_typed hk hs.toSaneText h hl)
    exact ⟨jnode (by simp) (by simp) (by simp) (by simp) (by simp), this.2.1 (ih hl (this.1 hf))⟩

theorem strPair_notNull (hs : JsonSaneText env) {t : Ty} {a b : List Char} {v : Val} (h : StrPair env t a b v) : ¬ NullForm env t v := by
  induction h with
  | some _ ih => intro hn; cases hn with | some hn => exact ih hn
  | box _ ih => intro hn; cases hn with | box hn => exact ih hn
  | transparent hd _ ih =>
    intro hn
    cases hn with
    | transparent hd' hn => rw [hd] at hd'; cases hd'; exact ih hn
  | @proxied i px a b p hd h ih =>
    intro hn
    cases hn with
    | proxied hd' hn =>
      rw [hd] at hd'; cases hd'
      exact ih ((hs.proxiesExact i px p hd (strPair_typed hs.toSaneText h)).2.2 hn)
  | _ => intro hn; cases hn

theorem strPair_exact (hs : JsonSaneText env) {t : Ty} {a b : List Char} {v : Val} (h : StrPair env t a b v) :
    v.floatsFinite → JEx env t v := by
  induction h with
  | str => intro _; exact jnode (by simp) (by simp) (by simp) (by simp) (by simp)
  | some h ih => intro hf; exact jex_some (ih hf) (strPair_notNull hs h)
  | box _ ih =>
    intro hf
    simp only [JEx, Holds]
    exact ⟨jnode (by simp) (by simp) (by simp) (by simp) (by simp), ih hf⟩
  | transparent hd h ih =>
    intro hf
    simp only [JEx, Holds]; rw [hd]; simp only [HoldsTys]
    exact ⟨jnode (by simp) (by simp) (by simp) (by simp) (by simp), ih hf.1, trivial⟩
  | @proxied i px a b p hd h ih =>
    intro hf
    simp only [JEx, Holds]; rw [hd]; simp only
    have := hs.proxiesExact i px p hd (strPair_typed hs.toSaneText h)
    exact ⟨jnode (by simp) (by simp) (by simp) (by simp) (by simp), this.2.1 (ih (this.1 hf))⟩
  | @variant i vars j var a hd hv hsh =>
    intro _
    obtain ⟨nm, rn, sh⟩ := var
    cases hsh
    simp only [JEx, Holds]; rw [hd]; simp only; rw [hv]
    exact ⟨jnode (by simp) (by simp) (by simp) (by simp) (by simp), trivial⟩

end NS
