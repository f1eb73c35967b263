import Verif.Lemmas.Weight
import Verif.Lemmas.WeightRon
import Verif.Lemmas.WeightBin
import Verif.Lemmas.WeightToml
import Verif.Props.BinRead
import Verif.Props.JsonWhole
import Verif.Props.RonWhole
import Verif.Props.Reread
import Verif.Props.Toml
import Verif.Props.TomlExamples
/-! # Property C92: a reader returns nothing larger than its input -/
namespace NS
variable {env : Env} {fl : FloatOps} {chk : Bool}

/-- **C92** (JSON): whatever `deserialize_json` returns holds no more than the text is long, times one more than the
most that defaults can supply in one struct. -/
theorem C92_json_value_within_text {D : Nat} (hfl : FloatLaws fl) (hk : LawfulKeys env) (hd : DistinctProg env)
    (hm : Modest env 1 D) {t : Ty} {txt : List Char} {v : Val} (h : Decodes (fun n => deserializeJson env fl n t txt) v) :
    v.weight 1 ≤ (D + 1) * txt.length := by
  obtain ⟨n, h⟩ := h
  obtain ⟨s, h⟩ := h n (Nat.le_refl _)
  exact json_weight hk hd hm (C66_json_reads_only hfl hk hd h)

/-- **C92** (RON). -/
theorem C92_ron_value_within_text {D : Nat} (hfl : FloatLaws fl) (hk : LawfulKeys env) (hd : DistinctProg env)
    (hm : Modest env 1 D) {t : Ty} {txt : List Char} {v : Val} (h : Decodes (fun n => deserializeRon env fl n t txt) v) :
    v.weight 1 ≤ (D + 1) * txt.length := by
  obtain ⟨n, h⟩ := h
  obtain ⟨s, h⟩ := h n (Nat.le_refl _)
  exact ron_weight hk hm (C64_ron_reads_only hfl hk hd h)

/-- **C92** (TOML): the map `TomlParser::parse` returns holds (not counting its keys) no more than the text is long. -/
theorem C92_toml_map_within_text {o : TomlOps} {txt : List Char} {m : TMap} (h : TomlOk (fun n => parseToml o n txt) m) :
    entriesWeight m ≤ txt.length := by
  obtain ⟨n, h⟩ := h
  obtain ⟨s, h⟩ := h n (Nat.le_refl _)
  exact toml_weight h

/-- **C92** (binary): what `de_bin` returns holds no more data than it consumes bytes. -/
theorem C92_bin_value_within_bytes (hk : LawfulKeys env) (hm : BinModest env) {t : Ty} {d : List Byte}
    (hd : d.length ≤ isizeMax) {o o' : Nat} (ho : o ≤ d.length) {v : Val}
    (h : Returns (fun n => deBin env chk d n t o) (.ok v o')) : o + v.weight 0 ≤ o' ∧ o' ≤ d.length := by
  obtain ⟨bs, hat, rfl, hs⟩ := (C68_bin_reads_exactly hk t d hd o ho v o').1 h
  have := bsays_weight hk hm hs
  exact ⟨by omega, hat.le⟩

/-- **C92** (binary): a `Vec`, list or set of things that take at least one byte each has no more elements than there are
bytes after its length. -/
theorem C92_bin_elements_within_bytes (hk : LawfulKeys env) {t : Ty} (ht : ∀ bs v, BinSays env t bs v → bs ≠ [])
    {d : List Byte} (hd : d.length ≤ isizeMax) {vs : List Val} {c : Ty}
    (hc : c = .vec t ∨ c = .linked t ∨ c = .hset t ∨ c = .bset t)
    (h : Decodes (fun n => deserializeBin env chk n c d) (.seq vs)) : 8 + vs.length ≤ d.length := by
  obtain ⟨bs, rest, rfl, hs⟩ := (C68_bin_deserialize_exactly hk c d hd _).1 h
  have hlen : ∀ ps : List (List Byte × Val), (∀ q ∈ ps, BinSays env t q.1 q.2) → ps.length ≤ (ps.flatMap (·.1)).length := by
    intro ps
    induction ps with
    | nil => intro; simp
    | cons q ps ih =>
      intro hq
      obtain ⟨h1, h2⟩ := List.forall_mem_cons.1 hq
      have := ih h2
      have : 0 < q.1.length := List.length_pos_iff.2 (ht _ _ h1)
      simp only [List.length_cons, List.flatMap_cons, List.length_append]
      omega
  generalize hv : Val.seq vs = v at hs
  rcases hc with rfl | rfl | rfl | rfl
  · cases hs with
    | vec ps hp _ _ hq =>
      cases hv
      have := hlen ps hq
      simp only [List.length_append, List.length_map]; omega
  · cases hs with
    | linked ps hp _ hq =>
      cases hv
      have := hlen ps hq
      simp only [List.length_append, List.length_map]; omega
  · cases hs with
    | hset ps hp _ _ hq =>
      cases hv
      have := hlen ps hq
      have h2 := firsts_length (ps.map (·.2))
      simp only [List.length_append, List.length_map] at h2 ⊢; omega
  · cases hs with
    | bset ps hp _ hq hr =>
      cases hv
      have := hlen ps hq
      have h2 := subset_length (pairwise_of_lt hk hr.1) (fun x hx => (hr.2 x).1 hx)
      simp only [List.length_append, List.length_map] at h2 ⊢; omega

theorem flatMap_nils (k : Nat) : (List.replicate k (([] : List Byte), Val.unit)).flatMap (·.1) = [] := by
  induction k with
  | zero => rfl
  | succ k ih => rw [List.replicate_succ, List.flatMap_cons, ih]; rfl

/-- **C92** (the exception): elements that take no bytes are not bounded by the input: any eight bytes are a
`Vec<()>` with as many elements as the number they spell. -/
theorem C92_bin_units_unbounded (hk : LawfulKeys env) (hz : env.memSize .unit = 0) {d : List Byte} (hd : d.length = 8) :
    Decodes (fun n => deserializeBin env chk n (.vec .unit) d) (.seq (List.replicate (littleEndian d) .unit)) := by
  refine (C68_bin_deserialize_exactly hk _ d (by rw [hd]; decide) _).2 ⟨d, [], (List.append_nil _).symm, ?_⟩
  have := BinSays.vec (env := env) (t := .unit) (p := d) (List.replicate (littleEndian d) ([], Val.unit)) hd
    (by simp) (by rw [hz]; exact Nat.zero_le _) (fun q hq => by rw [(List.mem_replicate.1 hq).2]; exact .unit)
  rw [flatMap_nils, List.append_nil, List.map_replicate] at this
  exact this

/-! ## Examples -/

/-- The structs of `exJEnv` get at most 5 from defaults. -/
theorem exJEnv_modest : Modest exJEnv 1 5 := by
  constructor
  · intro fs h
    rcases h with ⟨i, cd, nul, h⟩ | ⟨i, vars, h, v, hv, hf⟩
    · match i with
      | 0 => cases h; decide
      | 1 => cases h
      | 2 => cases h
      | 3 => cases h; decide
      | 4 => cases h; decide
      | n + 5 => simp at h
    · match i with
      | 0 => cases h
      | 1 =>
        cases h
        simp only [List.mem_cons, List.not_mem_nil, or_false] at hv
        rcases hv with rfl | rfl | rfl
        · cases hf
        · cases hf
        · cases hf; decide
      | 2 => cases h
      | 3 => cases h
      | 4 => cases h
      | n + 5 => simp at h
  · intro px h p
    have h : px ∈ [_] := h
    simp only [List.mem_cons, List.not_mem_nil, or_false] at h
    subst h
    simp [Val.weight, weightAll]

theorem exEnv_binModest : BinModest exEnv := by
  constructor
  · intro i fs cd nul h f hf hsk
    match i with
    | 0 =>
      cases h
      simp only [List.mem_cons, List.not_mem_nil, or_false] at hf
      rcases hf with rfl | rfl | rfl
      · cases hsk
      · rfl
      · cases hsk
    | 1 => cases h
    | n + 2 => simp at h
  · intro px h p
    have h : px ∈ [_] := h
    simp only [List.mem_cons, List.not_mem_nil, or_false] at h
    subst h
    simp [Val.weight, weightAll]

/-- `Conf` from a JSON text of 22 characters: it holds 5. -/
example : (Val.struct [.str (chars "y"), .int 3, .none, .int 0, .f64 2]).weight 1 = 5 ∧
    (Val.struct [.str (chars "y"), .int 3, .none, .int 0, .f64 2]).weight 1 ≤ (5 + 1) * (chars "{\"n\":\"y\",\"ratio\":2}").length :=
  ⟨by decide, C92_json_value_within_text toyFloat_laws exJEnv_lawful exJEnv_distinct exJEnv_modest (t := .named 3)
    (json_ok 30 _ (by decide +kernel))⟩

/-- A `Vec<u8>` from a RON text. -/
example : (Val.seq [.int 1, .int 20]).weight 1 = 5 ∧ (Val.seq [.int 1, .int 20]).weight 1 ≤ (5 + 1) * (chars "[1,20]").length :=
  ⟨by decide, C92_ron_value_within_text toyFloat_laws exJEnv_lawful exJEnv_distinct exJEnv_modest (t := .vec (.int .u8))
    (ron_ok 30 _ (by decide +kernel))⟩

/-- A `Node` from its bytes: `id` 7, no `note`, no `next`. -/
example : (Val.struct [.int 7, .str [], .none]).weight 0 = 2 ∧ 0 + (Val.struct [.int 7, .str [], .none]).weight 0 ≤ 3 :=
  ⟨by decide, (C92_bin_value_within_bytes (chk := true) exEnv_lawful exEnv_binModest (t := .named 0) (d := [7, 0, 0])
    (by decide) (Nat.zero_le _) (deBin_returns (n := 9) (by with_unfolding_all rfl) (by simp))).1⟩

/-- The document of `Verif/Props/TomlExamples.lean` (41 characters): its map holds 10. -/
example (m : TMap) (h : TomlOk (fun n => parseToml toyToml n exToml) m) : entriesWeight m ≤ exToml.length :=
  C92_toml_map_within_text h
example : ∃ m, TomlOk (fun n => parseToml toyToml n exToml) m ∧ entriesWeight m = 10 := by
  cases hr : parseToml toyToml 30 exToml with
  | ok m s =>
    refine ⟨m, toml_ok hr, ?_⟩
    have : (match parseToml toyToml 30 exToml with | .ok m _ => entriesWeight m | _ => 0) = 10 := by decide +kernel
    rw [hr] at this
    exact this
  | _ =>
    have : (match parseToml toyToml 30 exToml with | .ok _ _ => true | _ => false) = true := by decide +kernel
    rw [hr] at this
    cases this

/-- Strings take at least eight bytes. -/
example {vs : List Val} {d : List Byte} (hd : d.length ≤ isizeMax)
    (h : Decodes (fun n => deserializeBin exEnv true n (.vec .str) d) (.seq vs)) : 8 + vs.length ≤ d.length :=
  C92_bin_elements_within_bytes exEnv_lawful (t := .str)
    (fun bs v h => by cases h with | str hp _ => intro e; have := congrArg List.length e; simp [hp] at this) hd (.inl rfl) h

/-- A program in which `()` has size 0. -/
noncomputable def exZst : Env := { lawEnv [] [] with memSize := fun _ => 0 }

theorem exZst_lawful : LawfulKeys exZst :=
  have h := lawEnv_lawful [] []
  ⟨h.eq_iff, h.lt_iff_gt, h.lt_trans, h.keyEq_iff⟩

/-- Eight bytes `255` are a vector of 2^64 - 1 units. -/
example : Decodes (fun n => deserializeBin exZst true n (.vec .unit) (List.replicate 8 255))
      (.seq (List.replicate (2 ^ 64 - 1) .unit)) := by
  have := C92_bin_units_unbounded (chk := true) exZst_lawful rfl (d := List.replicate 8 255) rfl
  have e : littleEndian (List.replicate 8 255) = 2 ^ 64 - 1 := by decide
  rwa [e] at this

end NS
