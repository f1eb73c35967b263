import Verif.Lemmas.Weight
import Verif.Lemmas.RonText
/-! How much the values hold that the RON reader returns. -/
set_option linter.unusedSimpArgs false
namespace NS
variable {env : Env} {fl : FloatOps} {el : Nat}

/-- The extent of a tree. -/
def RTree.ext (x : RTree) : Nat := extent x.lexemes

theorem ext_list (xs : List RTree) (tr : Bool) : (xs.map RTree.ext).sum + xs.length + 1 ≤ (RTree.list xs tr).ext := by
  have := extent_comma tr (xs.map RTree.lexemes)
  change (xs.map fun x => extent x.lexemes).sum + _ + _ ≤ _
  rw [RTree.ext, RTree.lexemes_list]
  rw [sum_map_map] at this
  simp only [extent_cons, extent_append, extent_nil, Lexeme.extent, List.length_map] at this ⊢
  omega
theorem ext_tuple (xs : List RTree) (tr : Bool) : (xs.map RTree.ext).sum + xs.length + 1 ≤ (RTree.tuple xs tr).ext := by
  have := extent_comma tr (xs.map RTree.lexemes)
  change (xs.map fun x => extent x.lexemes).sum + _ + _ ≤ _
  rw [RTree.ext, RTree.lexemes_tuple]
  rw [sum_map_map] at this
  simp only [extent_cons, extent_append, extent_nil, Lexeme.extent, List.length_map] at this ⊢
  omega
theorem ext_map (ms : List (RTree × RTree)) (tr : Bool) :
    (ms.map fun m => m.1.ext + m.2.ext).sum + ms.length + 1 ≤ (RTree.map ms tr).ext := by
  have h1 := extent_comma tr (ms.map fun m => m.1.lexemes ++ .punct .colon :: m.2.lexemes)
  have h2 : (ms.map fun m => m.1.ext + m.2.ext).sum ≤
      ((ms.map fun m => m.1.lexemes ++ .punct .colon :: m.2.lexemes).map extent).sum := by
    clear h1
    induction ms with
    | nil => simp
    | cons m ms ih =>
      simp only [List.map_cons, List.sum_cons, extent_cons, extent_append, Lexeme.extent, RTree.ext] at ih ⊢
      omega
  rw [RTree.ext, RTree.lexemes_map]
  simp only [extent_cons, extent_append, extent_nil, Lexeme.extent, List.length_map] at h1 ⊢
  omega
theorem ext_fields (ms : List (List Char × RTree)) (tr : Bool) :
    (ms.map fun m => m.2.ext).sum + ms.length + 1 ≤ (RTree.fields ms tr).ext := by
  have h1 := extent_comma tr (ms.map fun m => Lexeme.word m.1 :: .punct .colon :: m.2.lexemes)
  have h2 : (ms.map fun m => m.2.ext).sum ≤
      ((ms.map fun m => Lexeme.word m.1 :: .punct .colon :: m.2.lexemes).map extent).sum := by
    clear h1
    induction ms with
    | nil => simp
    | cons m ms ih =>
      simp only [List.map_cons, List.sum_cons, extent_cons, extent_append, Lexeme.extent, RTree.ext] at ih ⊢
      omega
  rw [RTree.ext, RTree.lexemes_fields]
  simp only [extent_cons, extent_append, extent_nil, Lexeme.extent, List.length_map] at h1 ⊢
  omega
theorem ext_ctor (w : List Char) (x : RTree) : (RTree.ctor w x).ext = x.ext + 1 := by
  rw [RTree.ext, RTree.lexemes_ctor]
  simp [Lexeme.extent, RTree.ext, Nat.add_comm]
theorem ext_pos (x : RTree) : 1 ≤ x.ext := by
  rw [RTree.ext]
  obtain ⟨l, ls, e⟩ := List.exists_cons_of_ne_nil (lexemes_ne x)
  rw [e, extent_cons]
  cases l <;> simp [Lexeme.extent] <;> omega

theorem rfields_weight {fs : List Field} {cd : Bool} {ps : List RMember} {vs : List Val} {C : Nat} (hg : FieldsGet cd fs ps vs)
    (ih : ∀ p ∈ ps, ∀ f ∈ fs, f.skip = false → f.jsonName = p.1 → p.2.2.weight el ≤ C * p.2.1.ext) :
    weightAll el vs ≤ weightAll el (fs.map Field.absentValue) + C * (ps.map fun p => p.2.1.ext).sum := by
  have := weight_fields (el := el) (key := fun p : RMember => p.1) (g := fun p => C * p.2.1.ext) (ps := ps) hg.1 hg.2.2.1 (by
    intro i f w h1 h2
    have hm := List.mem_of_getElem? h1
    have h := hg.2.2.2 i f w h1 h2
    unfold FieldGets at h
    split at h
    · exact .inl (by rw [h])
    · rename_i hsk
      have hsk : f.skip = false := by simpa using hsk
      rcases h with ⟨a, p, b, rfl, h3, _, rfl⟩ | ⟨_, _, rfl⟩
      · exact .inr ⟨hsk, p, by simp, h3, ih p (by simp) f hm hsk h3.symm⟩
      · exact .inl (Nat.le_refl _))
  have h2 := sum_filter (fun p : RMember => C * p.2.1.ext) (fun p => fs.any fun f => !f.skip && (f.jsonName == p.1)) ps
  have h3 : (ps.map fun p => C * p.2.1.ext).sum = C * (ps.map fun p => p.2.1.ext).sum := by
    clear this h2 ih hg
    induction ps with
    | nil => simp
    | cons p ps ih => simp only [List.map_cons, List.sum_cons, ih, Nat.mul_add]
  omega

theorem rmeans_weight {D : Nat} (hk : LawfulKeys env) (hm : Modest env 1 D) {t : Ty} {x : RTree} {v : Val}
    (h : RonMeans env fl t x v) : v.weight 1 ≤ (D + 1) * x.ext := by
  have hC : 1 ≤ D + 1 := by omega
  have coll : ∀ (ps : List (RTree × Val)) (tr : Bool) (r : List Val),
      (∀ p ∈ ps, p.2.weight 1 ≤ (D + 1) * p.1.ext) → weightAll 1 r ≤ weightAll 1 (ps.map (·.2)) →
      r.length ≤ ps.length → (Val.seq r).weight 1 ≤ (D + 1) * (RTree.list (ps.map (·.1)) tr).ext := by
    intro ps tr r ih h1 h2
    have e1 := weight_map (el := 1) (C := D + 1) (g := fun p : RTree × Val => p.1.ext) ih
    have e2 := ext_list (ps.map (·.1)) tr
    rw [sum_map_map, List.length_map] at e2
    have := seq_within (n := ps.length) hC e1 e2
    rw [Val.weight]
    exact Nat.le_trans (Nat.add_le_add (by omega) h1) this
  have maps : ∀ (ps : List ((RTree × Val) × (RTree × Val))) (tr : Bool) (r : List Val),
      (∀ p ∈ ps, p.1.2.weight 1 ≤ (D + 1) * p.1.1.ext) → (∀ p ∈ ps, p.2.2.weight 1 ≤ (D + 1) * p.2.1.ext) →
      LastWins (ps.map fun p => .entry p.1.2 p.2.2) r → r.Pairwise (fun a b => a.key ≠ b.key) →
      (Val.seq r).weight 1 ≤ (D + 1) * (RTree.map (ps.map fun p => (p.1.1, p.2.1)) tr).ext := by
    intro ps tr r h1 h2 h3 h4
    have e1 := entries_weight (g := RTree.ext) h1 h2
    have e3 := ext_map (ps.map fun p => (p.1.1, p.2.1)) tr
    have e4 := weight_lastWins (el := 1) h3 h4
    have e5 := lastWins_length h3 h4
    rw [sum_map_map] at e3
    simp only [List.length_map] at e3 e5
    have := seq_within (n := ps.length) hC e1 e3
    simp only [Val.weight]
    omega
  have tys : ∀ (ps : List (Ty × RTree × Val)) (tr : Bool), (∀ p ∈ ps, p.2.2.weight 1 ≤ (D + 1) * p.2.1.ext) →
      1 * (ps.length + 1) + weightAll 1 (ps.map (·.2.2)) ≤ (D + 1) * (RTree.tuple (ps.map (·.2.1)) tr).ext := by
    intro ps tr ih
    have e1 := weight_map (el := 1) (C := D + 1) (g := fun p : Ty × RTree × Val => p.2.1.ext) ih
    have e2 := ext_tuple (ps.map (·.2.1)) tr
    rw [sum_map_map, List.length_map] at e2
    exact seq_within hC e1 e2
  have obj : ∀ (fs : List Field) (cd : Bool) (ps : List RMember) (vs : List Val) (tr : Bool), NamedFields env fs →
      FieldsGet cd fs ps vs →
      (∀ p ∈ ps, ∀ f ∈ fs, f.skip = false → f.jsonName = p.1 → p.2.2.weight 1 ≤ (D + 1) * p.2.1.ext) →
      weightAll 1 vs + 1 ≤ (D + 1) * (RTree.fields (ps.map fun p => (p.1, p.2.1)) tr).ext := by
    intro fs cd ps vs tr hn hg ih
    have h1 := rfields_weight hg ih
    have h2 := hm.absent fs hn
    have h3 := ext_fields (ps.map fun p => (p.1, p.2.1)) tr
    rw [sum_map_map] at h3
    simp only at h3
    rw [Nat.add_comm]
    exact obj_within (Nat.le_trans h1 (Nat.add_le_add_right h2 _)) (by omega) (by omega)
  induction h with
  | unit | true | false | boolNum | int | intWrap | f32 | f64 | epoch | none | dur | time => exact one_within hC (ext_pos _)
  | str =>
    rename_i s
    have := Nat.le_mul_of_pos_left (s.length + 1) hC
    have e : (RTree.str s).ext = s.length + 1 := by simp [RTree.ext, RTree.lexemes, Lexeme.extent]
    rw [e, Val.weight]
    omega
  | some _ _ ih => simpa [Val.weight] using ih
  | box _ ih => simpa [Val.weight] using ih
  | vec ps _ ih => exact coll ps _ _ ih (Nat.le_refl _) (by simp)
  | linked ps _ ih => exact coll ps _ _ ih (Nat.le_refl _) (by simp)
  | @array t n tr ps _ _ ih =>
    have e1 := weight_map (el := 1) (C := D + 1) (g := fun p : RTree × Val => p.1.ext) ih
    have e2 := ext_tuple (ps.map (·.1)) tr
    rw [sum_map_map, List.length_map] at e2
    rw [Val.weight, List.length_map]
    exact seq_within hC e1 e2
  | pair ps _ _ ih => rw [Val.weight, List.length_map]; exact tys ps _ ih
  | triple ps _ _ ih => rw [Val.weight, List.length_map]; exact tys ps _ ih
  | quad ps _ _ ih => rw [Val.weight, List.length_map]; exact tys ps _ ih
  | hset ps _ ih => exact coll ps _ _ ih (weight_firsts _) (by simpa using firsts_length (ps.map (·.2)))
  | bset ps _ hs ih =>
    exact coll ps _ _ ih (weight_setOf hk hs) (by simpa using subset_length (pairwise_of_lt hk hs.1) (fun x hx => (hs.2 x).1 hx))
  | hmap ps _ _ h3 h4 ih1 ih2 => exact maps ps _ _ ih1 ih2 h3 (pairwise_of_keys (by rw [h4]; exact firsts_pairwise _))
  | bmap ps _ _ h3 h4 ih1 ih2 => exact maps ps _ _ ih1 ih2 h3 (pairwise_of_lt_key hk h4)
  | @struct i fs cd nul vs tr ps hi hg _ ih =>
    have h1 := obj _ _ ps _ tr (.inl ⟨_, _, _, hi⟩) hg ih
    rw [Val.weight]
    omega
  | @tupleStruct i trans tr ps _ _ ih =>
    have h1 := tys ps tr ih
    rw [Val.weight]
    omega
  | variant => exact one_within hC (ext_pos _)
  | @tupleVariant i vars w j var tr ps _ _ _ _ ih =>
    have h1 := tys ps tr ih
    rw [Val.weight, ext_ctor, Nat.mul_add]
    omega
  | @structVariant i vars w j var fs vs tr ps hi hv hs hg _ ih =>
    have h1 := obj _ _ ps _ tr (.inr ⟨_, _, hi, _, List.mem_of_getElem? hv.1, hs⟩) hg ih
    rw [Val.weight, ext_ctor, Nat.mul_add]
    omega

theorem wordPair_weight {t : Ty} {a b : List Char} {v : Val} (h : WordPair env t a b v) : v.weight 1 = 1 := by
  induction h with
  | true | false | epoch | none => simp [Val.weight]
  | some _ _ ih => simpa [Val.weight] using ih
  | box _ ih => simpa [Val.weight] using ih
  | variant => simp [Val.weight, weightAll]

theorem ron_weight {D : Nat} (hk : LawfulKeys env) (hm : Modest env 1 D) {t : Ty} {txt : List Char} {v : Val}
    (h : RonReading env fl t txt v) : v.weight 1 ≤ (D + 1) * txt.length := by
  rcases h with ⟨x, h1, h2⟩ | ⟨a, b, rest, h1, h2⟩
  · exact Nat.le_trans (rmeans_weight hk hm h2) (Nat.mul_le_mul_left _ (rbegins_extent h1))
  · have e1 := wordPair_weight h2
    have e2 := rscan_extent h1
    simp only [extent_cons, extent_nil, Lexeme.extent] at e2
    exact Nat.le_trans (by omega : v.weight 1 ≤ txt.length) (Nat.le_mul_of_pos_left _ (by omega))

end NS
