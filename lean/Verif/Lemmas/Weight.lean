import Verif.Spec.Weight
import Verif.Lemmas.Reread
import Verif.Lemmas.RereadRon
import Verif.Lemmas.BinSays
/-! How much the values hold that the readers return. -/
set_option linter.unusedSimpArgs false
namespace NS
variable {env : Env} {fl : FloatOps} {el : Nat}

theorem weightAll_eq (vs : List Val) : weightAll el vs = (vs.map (Val.weight el)).sum := by
  induction vs with
  | nil => simp [weightAll]
  | cons v vs ih => simp [weightAll, ih]

theorem weightAll_append (a b : List Val) : weightAll el (a ++ b) = weightAll el a + weightAll el b := by
  simp [weightAll_eq]

/-- A list without repetitions weighs no more than one with the same elements. -/
theorem sum_subset {α : Type} (g : α → Nat) {r l : List α} (hn : r.Pairwise (· ≠ ·)) (hs : ∀ x ∈ r, x ∈ l) :
    (r.map g).sum ≤ (l.map g).sum := by
  induction r generalizing l with
  | nil => simp
  | cons x r ih =>
    obtain ⟨a, b, rfl⟩ := List.append_of_mem (hs x (by simp))
    rw [List.pairwise_cons] at hn
    have := ih (l := a ++ b) hn.2 fun y hy => by
      have h := hs y (by simp [hy])
      have hne := hn.1 y hy
      simp only [List.mem_append, List.mem_cons] at h ⊢
      rcases h with h | h | h
      · exact .inl h
      · exact absurd h.symm hne
      · exact .inr h
    simp only [List.map_append, List.map_cons, List.sum_append, List.sum_cons] at this ⊢
    omega

theorem weight_subset {r l : List Val} (hn : r.Pairwise (· ≠ ·)) (hs : ∀ x ∈ r, x ∈ l) : weightAll el r ≤ weightAll el l := by
  rw [weightAll_eq, weightAll_eq]
  exact sum_subset _ hn hs

theorem weight_firsts (vs : List Val) : weightAll el (firsts vs) ≤ weightAll el vs :=
  weight_subset (firsts_pairwise vs) fun _ h => firsts_mem.1 h

theorem weight_setOf (hk : LawfulKeys env) {vs r : List Val} (h : SetOf env vs r) : weightAll el r ≤ weightAll el vs :=
  weight_subset (pairwise_of_lt hk h.1) fun x hx => (h.2 x).1 hx

theorem ne_of_keys {r : List Val} (h : r.Pairwise (fun a b => a.key ≠ b.key)) : r.Pairwise (· ≠ ·) :=
  h.imp fun hk e => hk (by rw [e])

theorem weight_lastWins {es r : List Val} (h : LastWins es r) (hp : r.Pairwise (fun a b => a.key ≠ b.key)) :
    weightAll el r ≤ weightAll el es :=
  weight_subset (ne_of_keys hp) fun _ he => (lastWins_mem h hp he).1

/-- A sum of parts each within its bound. -/
theorem weight_map {α : Type} {ps : List α} {f : α → Val} {g : α → Nat} {C : Nat} (h : ∀ p ∈ ps, (f p).weight el ≤ C * g p) :
    weightAll el (ps.map f) ≤ C * (ps.map g).sum := by
  induction ps with
  | nil => simp [weightAll]
  | cons p ps ih =>
    have h1 := h p (by simp)
    have h2 := ih fun q hq => h q (by simp [hq])
    simp only [List.map_cons, weightAll, List.sum_cons, Nat.mul_add]
    omega

theorem sum_split {α : Type} (g : α → Nat) (A B : α → Bool) (h : ∀ x, A x = true → B x = false) (l : List α) :
    ((l.filter A).map g).sum + ((l.filter B).map g).sum ≤ ((l.filter fun x => A x || B x).map g).sum := by
  induction l with
  | nil => simp
  | cons x l ih =>
    have hx := h x
    rcases ha : A x <;> rcases hb : B x <;> simp [ha, hb] at hx ⊢ <;> omega

theorem sum_filter {α : Type} (g : α → Nat) (A : α → Bool) (l : List α) : ((l.filter A).map g).sum ≤ (l.map g).sum := by
  induction l with
  | nil => simp
  | cons x l ih => rcases ha : A x <;> simp [ha] <;> omega

theorem le_sum {α : Type} (g : α → Nat) {l : List α} {x : α} (h : x ∈ l) : g x ≤ (l.map g).sum := by
  obtain ⟨a, b, rfl⟩ := List.append_of_mem h
  simp
  omega

/-- The fields of a struct: absent ones have their default, the others each a member of their own. -/
theorem weight_fields {α : Type} {key : α → List Char} {g : α → Nat} {ps : List α} {fs : List Field} {vs : List Val}
    (hd : DistinctNames fs) (hl : vs.length = fs.length)
    (h : ∀ (i : Nat) f w, fs[i]? = some f → vs[i]? = some w → w.weight el ≤ f.absentValue.weight el ∨
      (f.skip = false ∧ ∃ p ∈ ps, key p = f.jsonName ∧ w.weight el ≤ g p)) :
    weightAll el vs ≤ weightAll el (fs.map Field.absentValue) +
      ((ps.filter fun p => fs.any fun f => !f.skip && (f.jsonName == key p)).map g).sum := by
  induction fs generalizing vs with
  | nil =>
    obtain rfl : vs = [] := List.length_eq_zero_iff.1 hl
    simp [weightAll]
  | cons f fs ih =>
    cases vs with
    | nil => simp at hl
    | cons w vs =>
      unfold DistinctNames at hd
      rw [List.pairwise_cons] at hd
      have ih := ih (vs := vs) hd.2 (by simpa using hl) fun i f' w' h1 h2 => h (i + 1) f' w' (by simpa using h1) (by simpa using h2)
      have h0 := h 0 f w (by simp) (by simp)
      have hs := sum_split g (fun p => !f.skip && (f.jsonName == key p)) (fun p => fs.any fun f => !f.skip && (f.jsonName == key p))
        (by
          intro p hp
          simp only [Bool.and_eq_true, Bool.not_eq_true', beq_iff_eq] at hp
          rw [Bool.eq_false_iff]
          intro hc
          simp only [List.any_eq_true, Bool.and_eq_true, Bool.not_eq_true', beq_iff_eq] at hc
          obtain ⟨f', hf', h1, h2⟩ := hc
          exact hd.1 f' hf' hp.1 h1 (hp.2.trans h2.symm)) ps
      have h0 : w.weight el ≤ f.absentValue.weight el + ((ps.filter fun p => !f.skip && (f.jsonName == key p)).map g).sum := by
        rcases h0 with h0 | ⟨hsk, p, hp, hkey, h0⟩
        · omega
        · have := le_sum g (l := ps.filter fun p => !f.skip && (f.jsonName == key p)) (x := p)
            (by simp [hp, hsk, hkey])
          omega
      simp only [weightAll, List.map_cons, List.any_cons] at ih hs ⊢
      omega

/-! ### Lexemes -/

/-- At least the length of a spelling. -/
def Lexeme.extent : Lexeme → Nat
  | .str s => s.length + 1
  | _ => 1
/-- The same for several lexemes. -/
def extent (ls : List Lexeme) : Nat := (ls.map Lexeme.extent).sum

@[simp] theorem extent_nil : extent [] = 0 := rfl
@[simp] theorem extent_cons (l : Lexeme) (ls : List Lexeme) : extent (l :: ls) = l.extent + extent ls := by simp [extent]
@[simp] theorem extent_append (a b : List Lexeme) : extent (a ++ b) = extent a + extent b := by simp [extent]

theorem extent_comma (tr : Bool) (xs : List (List Lexeme)) : (xs.map extent).sum + xs.length ≤ extent (commaLexemes tr xs) + 1 := by
  induction xs with
  | nil => simp
  | cons x xs ih =>
    cases xs with
    | nil => simp [commaLexemes]
    | cons y r =>
      simp only [commaLexemes, extent_append, extent_cons, List.map_cons, List.sum_cons, List.length_cons, Lexeme.extent] at ih ⊢
      omega

theorem extent_blocks (tr : Bool) (xs : List (List Lexeme)) : (xs.map extent).sum + xs.length + 1 ≤ extent (inBlocks tr xs) := by
  have := extent_comma tr xs
  simp only [inBlocks, extent_cons, extent_append, extent_nil, Lexeme.extent]
  omega
theorem extent_curlies (tr : Bool) (xs : List (List Lexeme)) : (xs.map extent).sum + xs.length + 1 ≤ extent (inCurlies tr xs) := by
  have := extent_comma tr xs
  simp only [inCurlies, extent_cons, extent_append, extent_nil, Lexeme.extent]
  omega

theorem strLit_length {b s : List Char} (h : StrLit b s) : s.length ≤ b.length := by
  induction h with
  | nil => simp
  | plain => simp; omega
  | esc => simp; omega
  | unicode => simp; omega
  | surrogates => simp; omega

theorem numLit_ne {s : List Char} {t : Num} (h : NumLit fl s t) : s ≠ [] := by
  cases h <;> simp_all

theorem jspell_extent {l : Lexeme} {s : List Char} (h : JSpell fl l s) : l.extent ≤ s.length := by
  cases h with
  | num h => exact List.length_pos_of_ne_nil (numLit_ne h)
  | str h => have := strLit_length h; simp [Lexeme.extent]; omega
  | _ => simp [Lexeme.extent]

theorem jscan_extent {ls : List Lexeme} {txt rest : List Char} (h : JScan fl ls txt rest) : extent ls + rest.length ≤ txt.length := by
  induction h with
  | nil => simp
  | cons _ h _ _ ih =>
    have := jspell_extent h
    simp only [extent_cons, List.length_append]
    omega

theorem jbegins_extent {ls : List Lexeme} {txt : List Char} (h : JBegins fl ls txt) : extent ls ≤ txt.length := by
  rcases h with ⟨rest, h, _⟩ | ⟨l, rest, h, _⟩
  · have := jscan_extent h; omega
  · have := jscan_extent h
    rw [extent_append] at this
    omega

theorem rspell_extent {l : Lexeme} {s : List Char} (h : RSpells' fl l s) : l.extent ≤ s.length := by
  rcases h with h | ⟨t, rfl, f, ex, x, rfl, _⟩
  · cases h with
    | num h => exact List.length_pos_of_ne_nil (numLit_ne h)
    | str h => have := strLit_length h; simp [Lexeme.extent]; omega
    | word h => exact List.length_pos_of_ne_nil (by intro e; subst e; simp [RWord] at h)
    | _ => simp [Lexeme.extent]
  · simp [Lexeme.extent]

theorem rscan_extent {ls : List Lexeme} {txt rest : List Char} (h : RScan fl ls txt rest) : extent ls + rest.length ≤ txt.length := by
  induction h with
  | nil => simp
  | cons _ h _ _ ih =>
    have := rspell_extent h
    simp only [extent_cons, List.length_append]
    omega

theorem rbegins_extent {ls : List Lexeme} {txt : List Char} (h : RBegins fl ls txt) : extent ls ≤ txt.length := by
  rcases h with ⟨rest, h, _⟩ | ⟨l, rest, h, _⟩
  · have := rscan_extent h; omega
  · have := rscan_extent h
    rw [extent_append] at this
    omega

/-! ### JSON -/

theorem seq_within {n W S E C : Nat} (hC : 1 ≤ C) (hW : W ≤ C * S) (hE : S + n + 1 ≤ E) : 1 * (n + 1) + W ≤ C * E := by
  have h1 : n + 1 ≤ C * (n + 1) := Nat.le_mul_of_pos_left _ hC
  have h2 : C * (S + (n + 1)) ≤ C * E := Nat.mul_le_mul_left C (by omega)
  rw [Nat.mul_add] at h2
  omega

theorem one_within {C E : Nat} (hC : 1 ≤ C) (hE : 1 ≤ E) : 1 ≤ C * E := Nat.mul_le_mul hC hE

theorem obj_within {W S E D a : Nat} (hW : W ≤ D + (D + 1) * S) (ha : a ≤ 1) (hE : S + 1 ≤ E) : a + W ≤ (D + 1) * E := by
  have h2 : (D + 1) * (S + 1) ≤ (D + 1) * E := Nat.mul_le_mul_left _ hE
  rw [Nat.mul_add] at h2
  omega

theorem weight_wrap (f : Field) (v : Val) : (f.wrap v).weight el = v.weight el := by
  unfold Field.wrap
  split <;> simp [Val.weight]

theorem jfields_weight {fs : List Field} {cd : Bool} {ps : List (Member (List Lexeme))} {vs : List Val} {C : Nat} (hd : DistinctNames fs)
    (hg : JFieldsGet cd fs ps vs)
    (ih : ∀ p ∈ ps, ∀ f ∈ fs, f.skip = false → f.jsonName = p.1 → p.2.2.weight el ≤ C * extent p.2.1) :
    weightAll el vs ≤ weightAll el (fs.map Field.absentValue) + C * (ps.map fun p => extent p.2.1).sum := by
  have := weight_fields (el := el) (key := fun p : Member (List Lexeme) => p.1) (g := fun p => C * extent p.2.1) (ps := ps) hd hg.2.1 (by
    intro i f w h1 h2
    have hm := List.mem_of_getElem? h1
    have h := hg.2.2 i f w h1 h2
    unfold JFieldGets at h
    split at h
    · exact .inl (by rw [h])
    · rename_i hsk
      have hsk : f.skip = false := by simpa using hsk
      rcases h with ⟨a, p, b, rfl, h3, _, rfl⟩ | ⟨_, _, rfl⟩
      · refine .inr ⟨hsk, p, by simp, h3, ?_⟩
        rw [weight_wrap]
        exact ih p (by simp) f hm hsk h3.symm
      · exact .inl (Nat.le_refl _))
  have h2 := sum_filter (fun p : Member (List Lexeme) => C * extent p.2.1)
    (fun p => fs.any fun f => !f.skip && (f.jsonName == p.1)) ps
  have h3 : (ps.map fun p => C * extent p.2.1).sum = C * (ps.map fun p => extent p.2.1).sum := by
    clear this h2 ih hg
    induction ps with
    | nil => simp
    | cons p ps ih => simp only [List.map_cons, List.sum_cons, ih, Nat.mul_add]
  omega

theorem members_extent (ps : List (Member (List Lexeme))) :
    (ps.map fun p => extent p.2.1).sum ≤ ((ps.map Member.lexemes).map extent).sum := by
  induction ps with
  | nil => simp
  | cons p ps ih => simp only [List.map_cons, List.sum_cons, Member.lexemes, extent_cons, Lexeme.extent] at ih ⊢; omega

theorem entries_weight {α : Type} {ps : List ((α × Val) × (α × Val))} {g : α → Nat} {C : Nat}
    (h1 : ∀ p ∈ ps, p.1.2.weight el ≤ C * g p.1.1) (h2 : ∀ p ∈ ps, p.2.2.weight el ≤ C * g p.2.1) :
    weightAll el (ps.map fun p => .entry p.1.2 p.2.2) ≤ C * (ps.map fun p => g p.1.1 + g p.2.1).sum :=
  weight_map fun p hp => by
    have := h1 p hp
    have := h2 p hp
    rw [Val.weight, Nat.mul_add]
    omega

theorem entries_extent (ps : List ((List Lexeme × Val) × (List Lexeme × Val))) :
    (ps.map fun p => extent p.1.1 + extent p.2.1).sum ≤
      ((ps.map fun p => p.1.1 ++ .punct .colon :: p.2.1).map extent).sum := by
  induction ps with
  | nil => simp
  | cons p ps ih =>
    simp only [List.map_cons, List.sum_cons, extent_cons, extent_append, Lexeme.extent] at ih ⊢
    omega

theorem sum_map_map {α β : Type} (f : α → β) (g : β → Nat) (l : List α) : ((l.map f).map g).sum = (l.map fun x => g (f x)).sum := by
  simp [Function.comp_def]

theorem jsays_weight {D : Nat} (hk : LawfulKeys env) (hd : DistinctProg env) (hm : Modest env 1 D) {t : Ty} {ls : List Lexeme} {v : Val}
    (h : JsonSays env fl t ls v) : v.weight 1 ≤ (D + 1) * extent ls := by
  have hC : 1 ≤ D + 1 := by omega
  have items : ∀ {α : Type} (ps : List α) (f : α → Val) (g : α → List Lexeme) (tr : Bool),
      (∀ p ∈ ps, (f p).weight 1 ≤ (D + 1) * extent (g p)) →
      1 * ((ps.map f).length + 1) + weightAll 1 (ps.map f) ≤ (D + 1) * extent (inBlocks tr (ps.map g)) := by
    intro α ps f g tr ih
    have h1 := weight_map (el := 1) (C := D + 1) (g := fun p => extent (g p)) ih
    have h2 := extent_blocks tr (ps.map g)
    rw [sum_map_map] at h2
    exact seq_within hC h1 (by simpa using h2)
  have coll : ∀ (ps : List (List Lexeme × Val)) (tr : Bool) (r : List Val),
      (∀ p ∈ ps, p.2.weight 1 ≤ (D + 1) * extent p.1) → weightAll 1 r ≤ weightAll 1 (ps.map (·.2)) →
      r.length ≤ ps.length → (Val.seq r).weight 1 ≤ (D + 1) * extent (inBlocks tr (ps.map (·.1))) := by
    intro ps tr r ih h1 h2
    have := items ps (·.2) (·.1) tr ih
    simp only [Val.weight, List.length_map] at this ⊢
    omega
  have maps : ∀ (ps : List ((List Lexeme × Val) × (List Lexeme × Val))) (tr : Bool) (r : List Val),
      (∀ p ∈ ps, p.1.2.weight 1 ≤ (D + 1) * extent p.1.1) → (∀ p ∈ ps, p.2.2.weight 1 ≤ (D + 1) * extent p.2.1) →
      LastWins (ps.map fun p => .entry p.1.2 p.2.2) r → r.Pairwise (fun a b => a.key ≠ b.key) →
      (Val.seq r).weight 1 ≤ (D + 1) * extent (inCurlies tr (ps.map fun p => p.1.1 ++ .punct .colon :: p.2.1)) := by
    intro ps tr r h1 h2 h3 h4
    have e1 := entries_weight (g := extent) h1 h2
    have e2 := entries_extent ps
    have e3 := extent_curlies tr (ps.map fun p => p.1.1 ++ .punct .colon :: p.2.1)
    have e4 := weight_lastWins (el := 1) h3 h4
    have e5 := lastWins_length h3 h4
    simp only [List.length_map] at e3 e5
    have := seq_within (n := ps.length) hC e1 (E := extent (inCurlies tr (ps.map fun p => p.1.1 ++ .punct .colon :: p.2.1))) (by omega)
    simp only [Val.weight]
    omega
  have obj : ∀ (fs : List Field) (cd : Bool) (ps : List (Member (List Lexeme))) (vs : List Val), NamedFields env fs → DistinctNames fs →
      JFieldsGet cd fs ps vs →
      (∀ p ∈ ps, ∀ f ∈ fs, f.skip = false → f.jsonName = p.1 → p.2.2.weight 1 ≤ (D + 1) * extent p.2.1) →
      weightAll 1 vs ≤ D + (D + 1) * ((ps.map Member.lexemes).map extent).sum := by
    intro fs cd ps vs hn hdn hg ih
    have h1 := jfields_weight hdn hg ih
    have h2 := hm.absent fs hn
    have h3 := Nat.mul_le_mul_left (D + 1) (members_extent ps)
    omega
  have tys : ∀ (ps : List (Ty × List Lexeme × Val)), (∀ p ∈ ps, p.2.2.weight 1 ≤ (D + 1) * extent p.2.1) →
      weightAll 1 (ps.map (·.2.2)) ≤ (D + 1) * ((ps.map (·.2.1)).map extent).sum := by
    intro ps ih
    rw [sum_map_map]
    exact weight_map ih
  induction h with
  | unit => exact one_within hC (by simp [Lexeme.extent])
  | true => exact one_within hC (by simp [Lexeme.extent])
  | false => exact one_within hC (by simp [Lexeme.extent])
  | int => exact one_within hC (by simp [Lexeme.extent])
  | intWrap => exact one_within hC (by simp [Lexeme.extent])
  | f32 => exact one_within hC (by simp [Lexeme.extent])
  | f64 => exact one_within hC (by simp [Lexeme.extent])
  | epoch => exact one_within hC (by simp [Lexeme.extent])
  | none => exact one_within hC (by simp [Lexeme.extent])
  | dur => exact one_within hC (by simp [inCurlies, Lexeme.extent])
  | time => exact one_within hC (by simp [inCurlies, Lexeme.extent])
  | str =>
    rename_i s
    have := Nat.le_mul_of_pos_left (s.length + 1) hC
    simp only [Val.weight, extent_cons, extent_nil, Lexeme.extent, Nat.add_zero]
    omega
  | some _ _ ih => simpa [Val.weight] using ih
  | box _ ih => simpa [Val.weight] using ih
  | transparent _ _ ih => simpa [Val.weight, weightAll] using ih
  | proxied hp _ ih => exact Nat.le_trans (by rw [Val.weight]; exact hm.proxy _ (List.mem_of_getElem? hp) _) ih
  | vec ps _ ih => exact items ps _ _ _ ih
  | linked ps _ ih => exact items ps _ _ _ ih
  | array ps _ _ ih => exact items ps _ _ _ ih
  | pair ps _ _ ih => exact items ps (·.2.2) (·.2.1) _ ih
  | triple ps _ _ ih => exact items ps (·.2.2) (·.2.1) _ ih
  | quad ps _ _ ih => exact items ps (·.2.2) (·.2.1) _ ih
  | hset ps _ ih => exact coll ps _ _ ih (weight_firsts _) (by simpa using firsts_length (ps.map (·.2)))
  | bset ps _ hs ih =>
    exact coll ps _ _ ih (weight_setOf hk hs) (by simpa using subset_length (pairwise_of_lt hk hs.1) (fun x hx => (hs.2 x).1 hx))
  | hmap ps _ _ h3 h4 ih1 ih2 => exact maps ps _ _ ih1 ih2 h3 (pairwise_of_keys (by rw [h4]; exact firsts_pairwise _))
  | bmap ps _ _ h3 h4 ih1 ih2 => exact maps ps _ _ ih1 ih2 h3 (pairwise_of_lt_key hk h4)
  | @struct i fs cd nul vs tr ps hi hg _ _ ih =>
    have h1 := obj _ _ ps _ (.inl ⟨_, _, _, hi⟩) (hd.fields _ _ _ _ hi) hg ih
    have h2 := extent_curlies tr (ps.map Member.lexemes)
    rw [Val.weight, ← Nat.zero_add (weightAll 1 _)]
    exact obj_within h1 (by omega) (by omega)
  | noFields => simp [Val.weight, weightAll]
  | newtype _ _ ih =>
    simp only [Val.weight, weightAll, Nat.add_zero]
    exact Nat.le_trans ih (Nat.mul_le_mul_left _ (by simp [inBlocks, commaLexemes]; omega))
  | @tupleStruct i trans tr ps _ _ _ ih =>
    have h1 := tys ps ih
    have h2 := extent_blocks tr (ps.map (·.2.1))
    exact Nat.le_trans h1 (Nat.mul_le_mul_left _ (by omega))
  | variant =>
    exact one_within hC (by simp [Lexeme.extent])
  | @tupleVariant i vars j var tr ps _ _ _ _ ih =>
    have h1 := tys ps ih
    have h2 := extent_blocks tr (ps.map (·.2.1))
    rw [Val.weight]
    refine obj_within (Nat.le_trans h1 (Nat.le_add_left _ _)) (by omega) ?_
    simp only [inCurlies, commaLexemes, Lexeme.extent, extent_cons, extent_append, extent_nil] at h2 ⊢
    omega
  | @structVariant i vars j var fs vs tr ps hi hv hs hg _ _ ih =>
    have h1 := obj _ _ ps _ (.inr ⟨_, _, hi, _, List.mem_of_getElem? hv, hs⟩) (hd.varFields _ _ hi _ (List.mem_of_getElem? hv) _ hs) hg ih
    have h2 := extent_curlies tr (ps.map Member.lexemes)
    rw [Val.weight]
    refine obj_within h1 (by omega) ?_
    rw [inCurlies, commaLexemes]
    simp only [Lexeme.extent, extent_cons, extent_append, extent_nil]
    omega

theorem strPair_weight {D : Nat} (hm : Modest env 1 D) {t : Ty} {a b : List Char} {v : Val} (h : StrPair env t a b v) :
    v.weight 1 ≤ extent [.str a, .str b] := by
  induction h with
  | str => simp [Val.weight, Lexeme.extent]; omega
  | some _ ih => simpa [Val.weight] using ih
  | box _ ih => simpa [Val.weight] using ih
  | transparent _ _ ih => simpa [Val.weight, weightAll] using ih
  | proxied hp _ ih => exact Nat.le_trans (by rw [Val.weight]; exact hm.proxy _ (List.mem_of_getElem? hp) _) ih
  | variant => simp [Val.weight, weightAll, Lexeme.extent]; omega

theorem json_weight {D : Nat} (hk : LawfulKeys env) (hd : DistinctProg env) (hm : Modest env 1 D) {t : Ty} {txt : List Char} {v : Val}
    (h : JsonReading env fl t txt v) : v.weight 1 ≤ (D + 1) * txt.length := by
  rcases h with ⟨ls, h1, h2⟩ | ⟨a, b, rest, h1, h2⟩
  · exact Nat.le_trans (jsays_weight hk hd hm h2) (Nat.mul_le_mul_left _ (jbegins_extent h1))
  · have e1 := strPair_weight hm h2
    have e2 := jscan_extent h1
    exact Nat.le_trans (by omega : v.weight 1 ≤ txt.length) (Nat.le_mul_of_pos_left _ (by omega))

end NS
