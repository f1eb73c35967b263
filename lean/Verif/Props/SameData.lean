import Verif.Props.BinRead
import Verif.Props.JsonWhole
import Verif.Props.RonWhole
import Verif.Lemmas.HashOrder
import Verif.Props.Transcode
/-!
# Types that read each other's data (C99)

Which types may stand for one another in the program without a change to stored data.  The statements are about
all inputs, not only written ones.  (`firsts`, `SetOf`: `Verif/Spec/RonMeans.lean`.)
-/
namespace NS
variable {env : Env} {fl : FloatOps} {chk : Bool}

theorem exists_setOf (hk : LawfulKeys env) (vs : List Val) : ∃ r, SetOf env vs r := by
  refine ⟨vs.foldl (collInsert env .bset) [], bset_fold_pairwise hk vs [] (by simp), fun x => ?_⟩
  rw [bset_fold_mem hk]
  simp

/-- Pairs with the same first component. -/
theorem map_const_inv {α : Type} {t : Ty} {ts : List Ty} (hts : ∀ x ∈ ts, x = t) {ps : List (Ty × α)} (h : ps.map (·.1) = ts) :
    ps = (ps.map (·.2)).map fun q => (t, q) := by
  subst h
  induction ps with
  | nil => rfl
  | cons p ps ih =>
    simp only [List.map_cons, List.cons.injEq]
    refine ⟨?_, ih fun x hx => hts x (by simp at hx ⊢; exact .inr hx)⟩
    rw [← hts p.1 (by simp)]

/-! ## JSON -/

/-- **C99** (JSON): `Vec` and `LinkedList` read the same texts, as the same elements. -/
theorem C99_json_vec_linked (hfl : FloatLaws fl) (hk : LawfulKeys env) (hd : DistinctProg env) (t : Ty) (txt : List Char) (v : Val) :
    Decodes (fun n => deserializeJson env fl n (.vec t) txt) v ↔ Decodes (fun n => deserializeJson env fl n (.linked t) txt) v := by
  rw [C66_json_reads_exactly hfl hk hd, C66_json_reads_exactly hfl hk hd]
  constructor
  · rintro (⟨ls, hb, h⟩ | ⟨a, b, rest, _, h⟩)
    · cases h with | vec ps h => exact .inl ⟨_, hb, .linked ps h⟩
    · cases h
  · rintro (⟨ls, hb, h⟩ | ⟨a, b, rest, _, h⟩)
    · cases h with | linked ps h => exact .inl ⟨_, hb, .vec ps h⟩
    · cases h

/-- **C99** (JSON): what reads as a `Vec` reads as the `HashSet` and the `BTreeSet` of its elements. -/
theorem C99_json_vec_sets (hfl : FloatLaws fl) (hk : LawfulKeys env) (hd : DistinctProg env) {t : Ty} {txt : List Char} {vs : List Val}
    (h : Decodes (fun n => deserializeJson env fl n (.vec t) txt) (.seq vs)) :
    Decodes (fun n => deserializeJson env fl n (.hset t) txt) (.seq (firsts vs)) ∧
      ∃ r, SetOf env vs r ∧ Decodes (fun n => deserializeJson env fl n (.bset t) txt) (.seq r) := by
  obtain ⟨r, hr⟩ := exists_setOf hk vs
  refine ⟨?_, r, hr, ?_⟩ <;> rw [C66_json_reads_exactly hfl hk hd] at h ⊢
  · rcases h with ⟨ls, hb, h⟩ | ⟨a, b, rest, _, h⟩
    · cases h with | vec ps h => exact .inl ⟨_, hb, .hset ps h⟩
    · cases h
  · rcases h with ⟨ls, hb, h⟩ | ⟨a, b, rest, _, h⟩
    · cases h with | vec ps h => exact .inl ⟨_, hb, .bset ps h hr⟩
    · cases h

/-- **C99** (JSON): `(T, T)`, `(T, T, T)` and `(T, T, T, T)` read the same texts as arrays of as many `T`. -/
theorem C99_json_tuple_array (hfl : FloatLaws fl) (hk : LawfulKeys env) (hd : DistinctProg env) (t : Ty) (txt : List Char) (v : Val) :
    (Decodes (fun n => deserializeJson env fl n (.pair t t) txt) v ↔ Decodes (fun n => deserializeJson env fl n (.array t 2) txt) v) ∧
    (Decodes (fun n => deserializeJson env fl n (.triple t t t) txt) v ↔ Decodes (fun n => deserializeJson env fl n (.array t 3) txt) v) ∧
    (Decodes (fun n => deserializeJson env fl n (.quad t t t t) txt) v ↔ Decodes (fun n => deserializeJson env fl n (.array t 4) txt) v) := by
  simp only [C66_json_reads_exactly hfl hk hd]
  refine ⟨⟨?_, ?_⟩, ⟨?_, ?_⟩, ?_, ?_⟩
  · rintro (⟨ls, hb, h⟩ | ⟨a, b, rest, _, h⟩)
    · cases h with
      | pair ps hm h =>
        have e := map_const_inv (t := t) (by simp) hm
        refine .inl ⟨_, hb, ?_⟩
        have := JsonSays.array (env := env) (fl := fl) (t := t) (n := 2) (tr := ‹Bool›) (ps.map (·.2)) (by simpa using congrArg List.length hm)
          (by
            intro p hp
            rw [e] at h
            exact h (t, p) (List.mem_map.2 ⟨p, hp, rfl⟩))
        simpa only [List.map_map, Function.comp_def] using this
    · cases h
  · rintro (⟨ls, hb, h⟩ | ⟨a, b, rest, _, h⟩)
    · cases h with
      | array ps hn h =>
        refine .inl ⟨_, hb, ?_⟩
        have := JsonSays.pair (env := env) (fl := fl) (a := t) (b := t) (tr := ‹Bool›) (ps.map fun q => (t, q))
          (by simp only [List.map_map, Function.comp_def, List.map_const', hn]; rfl)
          (by intro p hp; obtain ⟨q, hq, rfl⟩ := List.mem_map.1 hp; exact h q hq)
        simpa only [List.map_map, Function.comp_def] using this
    · cases h
  · rintro (⟨ls, hb, h⟩ | ⟨a, b, rest, _, h⟩)
    · cases h with
      | triple ps hm h =>
        have e := map_const_inv (t := t) (by simp) hm
        refine .inl ⟨_, hb, ?_⟩
        have := JsonSays.array (env := env) (fl := fl) (t := t) (n := 3) (tr := ‹Bool›) (ps.map (·.2)) (by simpa using congrArg List.length hm)
          (by
            intro p hp
            rw [e] at h
            exact h (t, p) (List.mem_map.2 ⟨p, hp, rfl⟩))
        simpa only [List.map_map, Function.comp_def] using this
    · cases h
  · rintro (⟨ls, hb, h⟩ | ⟨a, b, rest, _, h⟩)
    · cases h with
      | array ps hn h =>
        refine .inl ⟨_, hb, ?_⟩
        have := JsonSays.triple (env := env) (fl := fl) (a := t) (b := t) (c := t) (tr := ‹Bool›) (ps.map fun q => (t, q))
          (by simp only [List.map_map, Function.comp_def, List.map_const', hn]; rfl)
          (by intro p hp; obtain ⟨q, hq, rfl⟩ := List.mem_map.1 hp; exact h q hq)
        simpa only [List.map_map, Function.comp_def] using this
    · cases h
  · rintro (⟨ls, hb, h⟩ | ⟨a, b, rest, _, h⟩)
    · cases h with
      | quad ps hm h =>
        have e := map_const_inv (t := t) (by simp) hm
        refine .inl ⟨_, hb, ?_⟩
        have := JsonSays.array (env := env) (fl := fl) (t := t) (n := 4) (tr := ‹Bool›) (ps.map (·.2)) (by simpa using congrArg List.length hm)
          (by
            intro p hp
            rw [e] at h
            exact h (t, p) (List.mem_map.2 ⟨p, hp, rfl⟩))
        simpa only [List.map_map, Function.comp_def] using this
    · cases h
  · rintro (⟨ls, hb, h⟩ | ⟨a, b, rest, _, h⟩)
    · cases h with
      | array ps hn h =>
        refine .inl ⟨_, hb, ?_⟩
        have := JsonSays.quad (env := env) (fl := fl) (a := t) (b := t) (c := t) (d := t) (tr := ‹Bool›) (ps.map fun q => (t, q))
          (by simp only [List.map_map, Function.comp_def, List.map_const', hn]; rfl)
          (by intro p hp; obtain ⟨q, hq, rfl⟩ := List.mem_map.1 hp; exact h q hq)
        simpa only [List.map_map, Function.comp_def] using this
    · cases h

/-- **C99** (JSON): `Box<T>` reads what `T` reads. -/
theorem C99_json_box (hfl : FloatLaws fl) (hk : LawfulKeys env) (hd : DistinctProg env) (t : Ty) (txt : List Char) (v : Val) :
    Decodes (fun n => deserializeJson env fl n (.box t) txt) (.box v) ↔ Decodes (fun n => deserializeJson env fl n t txt) v := by
  rw [C66_json_reads_exactly hfl hk hd, C66_json_reads_exactly hfl hk hd]
  constructor
  · rintro (⟨ls, hb, h⟩ | ⟨a, b, rest, hs, h⟩)
    · cases h with | box h => exact .inl ⟨_, hb, h⟩
    · cases h with | box h => exact .inr ⟨_, _, _, hs, h⟩
  · rintro (⟨ls, hb, h⟩ | ⟨a, b, rest, hs, h⟩)
    · exact .inl ⟨_, hb, .box h⟩
    · exact .inr ⟨_, _, _, hs, .box h⟩

/-- **C99** (JSON): a `[T; N]` reads the texts that a `Vec` reads as `N` elements. -/
theorem C99_json_vec_array (hfl : FloatLaws fl) (hk : LawfulKeys env) (hd : DistinctProg env) (t : Ty) (n : Nat) (txt : List Char) (vs : List Val) :
    Decodes (fun m => deserializeJson env fl m (.array t n) txt) (.seq vs) ↔
      Decodes (fun m => deserializeJson env fl m (.vec t) txt) (.seq vs) ∧ vs.length = n := by
  rw [C66_json_reads_exactly hfl hk hd, C66_json_reads_exactly hfl hk hd]
  constructor
  · rintro (⟨ls, hb, h⟩ | ⟨a, b, rest, _, h⟩)
    · cases h with | array ps hn h => exact ⟨.inl ⟨_, hb, .vec ps h⟩, by simpa using hn⟩
    · cases h
  · rintro ⟨⟨ls, hb, h⟩ | ⟨a, b, rest, _, h⟩, hn⟩
    · cases h with | vec ps h => exact .inl ⟨_, hb, .array ps (by simpa using hn) h⟩
    · cases h

/-! ## RON -/

/-- **C99** (RON): `Vec` and `LinkedList` read the same texts, as the same elements. -/
theorem C99_ron_vec_linked (hfl : FloatLaws fl) (hk : LawfulKeys env) (hd : DistinctProg env) (t : Ty) (txt : List Char) (v : Val) :
    Decodes (fun n => deserializeRon env fl n (.vec t) txt) v ↔ Decodes (fun n => deserializeRon env fl n (.linked t) txt) v := by
  rw [C64_ron_reads_exactly hfl hk hd, C64_ron_reads_exactly hfl hk hd]
  constructor
  · rintro (⟨ls, hb, h⟩ | ⟨a, b, rest, _, h⟩)
    · cases h with | vec ps h => exact .inl ⟨_, hb, .linked ps h⟩
    · cases h
  · rintro (⟨ls, hb, h⟩ | ⟨a, b, rest, _, h⟩)
    · cases h with | linked ps h => exact .inl ⟨_, hb, .vec ps h⟩
    · cases h

/-- **C99** (RON): what reads as a `Vec` reads as the `HashSet` and the `BTreeSet` of its elements. -/
theorem C99_ron_vec_sets (hfl : FloatLaws fl) (hk : LawfulKeys env) (hd : DistinctProg env) {t : Ty} {txt : List Char} {vs : List Val}
    (h : Decodes (fun n => deserializeRon env fl n (.vec t) txt) (.seq vs)) :
    Decodes (fun n => deserializeRon env fl n (.hset t) txt) (.seq (firsts vs)) ∧
      ∃ r, SetOf env vs r ∧ Decodes (fun n => deserializeRon env fl n (.bset t) txt) (.seq r) := by
  obtain ⟨r, hr⟩ := exists_setOf hk vs
  refine ⟨?_, r, hr, ?_⟩ <;> rw [C64_ron_reads_exactly hfl hk hd] at h ⊢
  · rcases h with ⟨ls, hb, h⟩ | ⟨a, b, rest, _, h⟩
    · cases h with | vec ps h => exact .inl ⟨_, hb, .hset ps h⟩
    · cases h
  · rcases h with ⟨ls, hb, h⟩ | ⟨a, b, rest, _, h⟩
    · cases h with | vec ps h => exact .inl ⟨_, hb, .bset ps h hr⟩
    · cases h

/-- **C99** (RON): `(T, T)`, `(T, T, T)` and `(T, T, T, T)` read the same texts as arrays of as many `T`. -/
theorem C99_ron_tuple_array (hfl : FloatLaws fl) (hk : LawfulKeys env) (hd : DistinctProg env) (t : Ty) (txt : List Char) (v : Val) :
    (Decodes (fun n => deserializeRon env fl n (.pair t t) txt) v ↔ Decodes (fun n => deserializeRon env fl n (.array t 2) txt) v) ∧
    (Decodes (fun n => deserializeRon env fl n (.triple t t t) txt) v ↔ Decodes (fun n => deserializeRon env fl n (.array t 3) txt) v) ∧
    (Decodes (fun n => deserializeRon env fl n (.quad t t t t) txt) v ↔ Decodes (fun n => deserializeRon env fl n (.array t 4) txt) v) := by
  simp only [C64_ron_reads_exactly hfl hk hd]
  refine ⟨⟨?_, ?_⟩, ⟨?_, ?_⟩, ?_, ?_⟩
  · rintro (⟨ls, hb, h⟩ | ⟨a, b, rest, _, h⟩)
    · cases h with
      | pair ps hm h =>
        have e := map_const_inv (t := t) (by simp) hm
        refine .inl ⟨_, hb, ?_⟩
        have := RonMeans.array (env := env) (fl := fl) (t := t) (n := 2) (tr := ‹Bool›) (ps.map (·.2)) (by simpa using congrArg List.length hm)
          (by
            intro p hp
            rw [e] at h
            exact h (t, p) (List.mem_map.2 ⟨p, hp, rfl⟩))
        simpa only [List.map_map, Function.comp_def] using this
    · cases h
  · rintro (⟨ls, hb, h⟩ | ⟨a, b, rest, _, h⟩)
    · cases h with
      | array ps hn h =>
        refine .inl ⟨_, hb, ?_⟩
        have := RonMeans.pair (env := env) (fl := fl) (a := t) (b := t) (tr := ‹Bool›) (ps.map fun q => (t, q))
          (by simp only [List.map_map, Function.comp_def, List.map_const', hn]; rfl)
          (by intro p hp; obtain ⟨q, hq, rfl⟩ := List.mem_map.1 hp; exact h q hq)
        simpa only [List.map_map, Function.comp_def] using this
    · cases h
  · rintro (⟨ls, hb, h⟩ | ⟨a, b, rest, _, h⟩)
    · cases h with
      | triple ps hm h =>
        have e := map_const_inv (t := t) (by simp) hm
        refine .inl ⟨_, hb, ?_⟩
        have := RonMeans.array (env := env) (fl := fl) (t := t) (n := 3) (tr := ‹Bool›) (ps.map (·.2)) (by simpa using congrArg List.length hm)
          (by
            intro p hp
            rw [e] at h
            exact h (t, p) (List.mem_map.2 ⟨p, hp, rfl⟩))
        simpa only [List.map_map, Function.comp_def] using this
    · cases h
  · rintro (⟨ls, hb, h⟩ | ⟨a, b, rest, _, h⟩)
    · cases h with
      | array ps hn h =>
        refine .inl ⟨_, hb, ?_⟩
        have := RonMeans.triple (env := env) (fl := fl) (a := t) (b := t) (c := t) (tr := ‹Bool›) (ps.map fun q => (t, q))
          (by simp only [List.map_map, Function.comp_def, List.map_const', hn]; rfl)
          (by intro p hp; obtain ⟨q, hq, rfl⟩ := List.mem_map.1 hp; exact h q hq)
        simpa only [List.map_map, Function.comp_def] using this
    · cases h
  · rintro (⟨ls, hb, h⟩ | ⟨a, b, rest, _, h⟩)
    · cases h with
      | quad ps hm h =>
        have e := map_const_inv (t := t) (by simp) hm
        refine .inl ⟨_, hb, ?_⟩
        have := RonMeans.array (env := env) (fl := fl) (t := t) (n := 4) (tr := ‹Bool›) (ps.map (·.2)) (by simpa using congrArg List.length hm)
          (by
            intro p hp
            rw [e] at h
            exact h (t, p) (List.mem_map.2 ⟨p, hp, rfl⟩))
        simpa only [List.map_map, Function.comp_def] using this
    · cases h
  · rintro (⟨ls, hb, h⟩ | ⟨a, b, rest, _, h⟩)
    · cases h with
      | array ps hn h =>
        refine .inl ⟨_, hb, ?_⟩
        have := RonMeans.quad (env := env) (fl := fl) (a := t) (b := t) (c := t) (d := t) (tr := ‹Bool›) (ps.map fun q => (t, q))
          (by simp only [List.map_map, Function.comp_def, List.map_const', hn]; rfl)
          (by intro p hp; obtain ⟨q, hq, rfl⟩ := List.mem_map.1 hp; exact h q hq)
        simpa only [List.map_map, Function.comp_def] using this
    · cases h

/-- **C99** (RON): `Box<T>` reads what `T` reads. -/
theorem C99_ron_box (hfl : FloatLaws fl) (hk : LawfulKeys env) (hd : DistinctProg env) (t : Ty) (txt : List Char) (v : Val) :
    Decodes (fun n => deserializeRon env fl n (.box t) txt) (.box v) ↔ Decodes (fun n => deserializeRon env fl n t txt) v := by
  rw [C64_ron_reads_exactly hfl hk hd, C64_ron_reads_exactly hfl hk hd]
  constructor
  · rintro (⟨ls, hb, h⟩ | ⟨a, b, rest, hs, h⟩)
    · cases h with | box h => exact .inl ⟨_, hb, h⟩
    · cases h with | box h => exact .inr ⟨_, _, _, hs, h⟩
  · rintro (⟨ls, hb, h⟩ | ⟨a, b, rest, hs, h⟩)
    · exact .inl ⟨_, hb, .box h⟩
    · exact .inr ⟨_, _, _, hs, .box h⟩

/-! ## Binary -/

/-- **C99** (binary): what reads as a `Vec` reads as a `LinkedList` with the same elements, as the `BTreeSet` and (if
a hash table of that capacity can be allocated) the `HashSet` of its elements. -/
theorem C99_bin_vec_others (hk : LawfulKeys env) {t : Ty} {d : List Byte} (hd : d.length ≤ isizeMax) {vs : List Val}
    (h : Decodes (fun n => deserializeBin env chk n (.vec t) d) (.seq vs)) :
    Decodes (fun n => deserializeBin env chk n (.linked t) d) (.seq vs) ∧
    (∃ r, SetOf env vs r ∧ Decodes (fun n => deserializeBin env chk n (.bset t) d) (.seq r)) ∧
    (env.hashCapPanics (env.memSize t) vs.length = false →
      Decodes (fun n => deserializeBin env chk n (.hset t) d) (.seq (firsts vs))) := by
  obtain ⟨r, hr⟩ := exists_setOf hk vs
  simp only [C68_bin_deserialize_exactly hk _ d hd] at h ⊢
  obtain ⟨bs, rest, rfl, h⟩ := h
  cases h with
  | vec ps h1 h2 h3 h4 =>
    exact ⟨⟨_, _, rfl, .linked ps h1 h2 h4⟩, ⟨r, hr, _, _, rfl, .bset ps h1 h2 h4 hr⟩,
      fun hc => ⟨_, _, rfl, .hset ps h1 h2 (by simpa using hc) h4⟩⟩

/-- **C99** (binary): and back, if the vector can be allocated. -/
theorem C99_bin_linked_vec (hk : LawfulKeys env) {t : Ty} {d : List Byte} (hd : d.length ≤ isizeMax) {vs : List Val}
    (h : Decodes (fun n => deserializeBin env chk n (.linked t) d) (.seq vs)) (hm : vs.length * env.memSize t ≤ isizeMax) :
    Decodes (fun n => deserializeBin env chk n (.vec t) d) (.seq vs) := by
  simp only [C68_bin_deserialize_exactly hk _ d hd] at h ⊢
  obtain ⟨bs, rest, rfl, h⟩ := h
  cases h with
  | linked ps h1 h2 h4 => exact ⟨_, _, rfl, .vec ps h1 h2 (by simpa using hm) h4⟩

/-- **C99** (binary): `(T, T)`, `(T, T, T)` and `(T, T, T, T)` read the same bytes as arrays of as many `T`. -/
theorem C99_bin_tuple_array (hk : LawfulKeys env) (t : Ty) (d : List Byte) (hd : d.length ≤ isizeMax) (v : Val) :
    (Decodes (fun n => deserializeBin env chk n (.pair t t) d) v ↔ Decodes (fun n => deserializeBin env chk n (.array t 2) d) v) ∧
    (Decodes (fun n => deserializeBin env chk n (.triple t t t) d) v ↔ Decodes (fun n => deserializeBin env chk n (.array t 3) d) v) ∧
    (Decodes (fun n => deserializeBin env chk n (.quad t t t t) d) v ↔ Decodes (fun n => deserializeBin env chk n (.array t 4) d) v) := by
  simp only [C68_bin_deserialize_exactly hk _ d hd]
  refine ⟨⟨?_, ?_⟩, ⟨?_, ?_⟩, ?_, ?_⟩
  · rintro ⟨bs, rest, rfl, h⟩
    cases h with
    | pair ps hm h =>
      have e := map_const_inv (t := t) (by simp) hm
      refine ⟨_, _, rfl, ?_⟩
      have := BinSays.array (env := env) (t := t) (n := 2) (ps.map (·.2)) (by simpa using congrArg List.length hm)
        (by
          intro p hp
          rw [e] at h
          exact h (t, p) (List.mem_map.2 ⟨p, hp, rfl⟩))
      simpa only [List.map_map, Function.comp_def, List.flatMap_map] using this
  · rintro ⟨bs, rest, rfl, h⟩
    cases h with
    | array ps hn h =>
      refine ⟨_, _, rfl, ?_⟩
      have := BinSays.pair (env := env) (a := t) (b := t) (ps.map fun q => (t, q))
        (by simp only [List.map_map, Function.comp_def, List.map_const', hn]; rfl)
        (by intro p hp; obtain ⟨q, hq, rfl⟩ := List.mem_map.1 hp; exact h q hq)
      simpa only [List.map_map, Function.comp_def, List.flatMap_map] using this
  · rintro ⟨bs, rest, rfl, h⟩
    cases h with
    | triple ps hm h =>
      have e := map_const_inv (t := t) (by simp) hm
      refine ⟨_, _, rfl, ?_⟩
      have := BinSays.array (env := env) (t := t) (n := 3) (ps.map (·.2)) (by simpa using congrArg List.length hm)
        (by
          intro p hp
          rw [e] at h
          exact h (t, p) (List.mem_map.2 ⟨p, hp, rfl⟩))
      simpa only [List.map_map, Function.comp_def, List.flatMap_map] using this
  · rintro ⟨bs, rest, rfl, h⟩
    cases h with
    | array ps hn h =>
      refine ⟨_, _, rfl, ?_⟩
      have := BinSays.triple (env := env) (a := t) (b := t) (c := t) (ps.map fun q => (t, q))
        (by simp only [List.map_map, Function.comp_def, List.map_const', hn]; rfl)
        (by intro p hp; obtain ⟨q, hq, rfl⟩ := List.mem_map.1 hp; exact h q hq)
      simpa only [List.map_map, Function.comp_def, List.flatMap_map] using this
  · rintro ⟨bs, rest, rfl, h⟩
    cases h with
    | quad ps hm h =>
      have e := map_const_inv (t := t) (by simp) hm
      refine ⟨_, _, rfl, ?_⟩
      have := BinSays.array (env := env) (t := t) (n := 4) (ps.map (·.2)) (by simpa using congrArg List.length hm)
        (by
          intro p hp
          rw [e] at h
          exact h (t, p) (List.mem_map.2 ⟨p, hp, rfl⟩))
      simpa only [List.map_map, Function.comp_def, List.flatMap_map] using this
  · rintro ⟨bs, rest, rfl, h⟩
    cases h with
    | array ps hn h =>
      refine ⟨_, _, rfl, ?_⟩
      have := BinSays.quad (env := env) (a := t) (b := t) (c := t) (d := t) (ps.map fun q => (t, q))
        (by simp only [List.map_map, Function.comp_def, List.map_const', hn]; rfl)
        (by intro p hp; obtain ⟨q, hq, rfl⟩ := List.mem_map.1 hp; exact h q hq)
      simpa only [List.map_map, Function.comp_def, List.flatMap_map] using this

/-- **C99** (binary): `Box<T>` reads what `T` reads. -/
theorem C99_bin_box (hk : LawfulKeys env) (t : Ty) (d : List Byte) (hd : d.length ≤ isizeMax) (v : Val) :
    Decodes (fun n => deserializeBin env chk n (.box t) d) (.box v) ↔ Decodes (fun n => deserializeBin env chk n t d) v := by
  simp only [C68_bin_deserialize_exactly hk _ d hd]
  constructor
  · rintro ⟨bs, rest, rfl, h⟩
    cases h with | box h => exact ⟨_, _, rfl, h⟩
  · rintro ⟨bs, rest, rfl, h⟩
    exact ⟨_, _, rfl, .box h⟩

/-- **C99** (binary): a struct whose fields have the types of a tuple struct, none of them skipped, reads the same
bytes as the same components: names and `rename` leave no trace. -/
theorem C99_bin_struct_tuple (hk : LawfulKeys env) {i j : Nat} {fs : List Field} {cd nul tr : Bool}
    (hi : env.defs[i]? = some (.struct fs cd nul)) (hj : env.defs[j]? = some (.tuple (fs.map (·.ty)) tr))
    (hs : ∀ f ∈ fs, f.skip = false) (d : List Byte) (hd : d.length ≤ isizeMax) (vs : List Val) :
    Decodes (fun n => deserializeBin env chk n (.named i) d) (.struct vs) ↔
      Decodes (fun n => deserializeBin env chk n (.named j) d) (.struct vs) := by
  simp only [C68_bin_deserialize_exactly hk _ d hd]
  constructor
  · rintro ⟨bs, rest, rfl, h⟩
    cases h with
    | struct ps hd' h1 h2 =>
      rw [hi] at hd'
      simp only [Option.some.injEq, Def.struct.injEq] at hd'
      obtain ⟨rfl, rfl, rfl⟩ := hd'
      refine ⟨_, _, rfl, ?_⟩
      have := BinSays.tupleStruct (env := env) (i := j) (tr := tr) (ps.map fun q => (q.1.ty, q.2)) (by simpa [List.map_map, Function.comp_def] using hj)
        (by intro p hp; obtain ⟨q, hq, rfl⟩ := List.mem_map.1 hp; exact h2 q hq (hs q.1 (List.mem_map.2 ⟨q, hq, rfl⟩)))
      simpa only [List.map_map, Function.comp_def, List.flatMap_map] using this
    | tupleStruct ps hd' _ => rw [hi] at hd'; cases hd'
  · rintro ⟨bs, rest, rfl, h⟩
    cases h with
    | struct ps hd' _ _ => rw [hj] at hd'; cases hd'
    | tupleStruct ps hd' h =>
      rw [hj] at hd'
      simp only [Option.some.injEq, Def.tuple.injEq] at hd'
      obtain ⟨e, rfl⟩ := hd'
      refine ⟨_, _, rfl, ?_⟩
      have hl : fs.length = ps.length := by simpa using congrArg List.length e
      have key : ∀ q ∈ fs.zip (ps.map (·.2)), (q.1.ty, q.2) ∈ ps := by
        clear hi hj hs hd
        induction fs generalizing ps with
        | nil => simp
        | cons f fs ih =>
          match ps, e, hl with
          | p :: ps, e, hl =>
            simp only [List.map_cons, List.cons.injEq] at e
            intro q hq
            simp only [List.map_cons, List.zip_cons_cons, List.mem_cons] at hq
            rcases hq with rfl | hq
            · simp [e.1]
            · exact List.mem_cons_of_mem _ (ih ps (fun p hp => h p (by simp [hp])) e.2 (by simpa using hl) q hq)
      have h1 : (fs.zip (ps.map (·.2))).map (·.1) = fs := List.map_fst_zip (by simp [hl])
      have h2 : (fs.zip (ps.map (·.2))).map (·.2) = ps.map (·.2) := List.map_snd_zip (by simp [hl])
      have hmem : ∀ q ∈ fs.zip (ps.map (·.2)), q.1 ∈ fs := fun q hq => by rw [← h1]; exact List.mem_map.2 ⟨q, hq, rfl⟩
      have := BinSays.struct (env := env) (i := i) (cd := cd) (nul := nul) (fs.zip (ps.map (·.2))) (by rw [h1]; exact hi)
        (fun q hq hsk => by rw [hs q.1 (hmem q hq)] at hsk; cases hsk) (fun q hq _ => h _ (key q hq))
      have a1 : (fs.zip (ps.map (·.2))).flatMap (·.2.1) = ps.flatMap (·.2.1) := by
        rw [← List.flatMap_map (f := fun q : Field × List Byte × Val => q.2) (g := fun q => q.1), h2, List.flatMap_map]
      have a2 : (fs.zip (ps.map (·.2))).map (·.2.2) = ps.map (·.2.2) := by
        have := congrArg (List.map (·.2)) h2
        simpa only [List.map_map, Function.comp_def] using this
      rw [a1, a2] at this
      exact this

/-! ### Examples -/

/-- `[3,1,3]` as a `Vec`, a `LinkedList`, a `[u8; 3]`, a `(u8, u8, u8)`, a `HashSet` and a `BTreeSet`. -/
theorem exSeq_json : Decodes (fun n => deserializeJson exJEnv toyFloat n (.vec (.int .u8)) (chars "[3,1,3]")) (.seq [.int 3, .int 1, .int 3]) :=
  json_ok 9 _ (by decide +kernel)

example : Decodes (fun n => deserializeJson exJEnv toyFloat n (.linked (.int .u8)) (chars "[3,1,3]")) (.seq [.int 3, .int 1, .int 3]) :=
  (C99_json_vec_linked toyFloat_laws exJEnv_lawful exJEnv_distinct _ _ _).1 exSeq_json

example : Decodes (fun n => deserializeJson exJEnv toyFloat n (.triple (.int .u8) (.int .u8) (.int .u8)) (chars "[3,1,3]")) (.seq [.int 3, .int 1, .int 3]) :=
  (C99_json_tuple_array toyFloat_laws exJEnv_lawful exJEnv_distinct _ _ _).2.1.2
    ((C99_json_vec_array toyFloat_laws exJEnv_lawful exJEnv_distinct _ _ _ _).2 ⟨exSeq_json, rfl⟩)

example : Decodes (fun n => deserializeJson exJEnv toyFloat n (.hset (.int .u8)) (chars "[3,1,3]")) (.seq [.int 3, .int 1]) := by
  have := (C99_json_vec_sets toyFloat_laws exJEnv_lawful exJEnv_distinct exSeq_json).1
  simpa [firsts] using this

example : Decodes (fun n => deserializeJson exJEnv toyFloat n (.box (.vec (.int .u8))) (chars "[3,1,3]")) (.box (.seq [.int 3, .int 1, .int 3])) :=
  (C99_json_box toyFloat_laws exJEnv_lawful exJEnv_distinct _ _ _).2 exSeq_json

theorem exSeq_ron : Decodes (fun n => deserializeRon exJEnv toyFloat n (.vec (.int .u8)) (chars "[3,1,3]")) (.seq [.int 3, .int 1, .int 3]) :=
  ron_ok 9 _ (by decide +kernel)

example : Decodes (fun n => deserializeRon exJEnv toyFloat n (.box (.linked (.int .u8))) (chars "[3,1,3]")) (.box (.seq [.int 3, .int 1, .int 3])) :=
  (C99_ron_box toyFloat_laws exJEnv_lawful exJEnv_distinct _ _ _).2
    ((C99_ron_vec_linked toyFloat_laws exJEnv_lawful exJEnv_distinct _ _ _).1 exSeq_ron)

example : Decodes (fun n => deserializeRon exJEnv toyFloat n (.hset (.int .u8)) (chars "[3,1,3]")) (.seq [.int 3, .int 1]) := by
  have := (C99_ron_vec_sets toyFloat_laws exJEnv_lawful exJEnv_distinct exSeq_ron).1
  simpa [firsts] using this

example : Decodes (fun n => deserializeRon exJEnv toyFloat n (.array (.int .u8) 2) (chars "(3,1)")) (.seq [.int 3, .int 1]) :=
  (C99_ron_tuple_array toyFloat_laws exJEnv_lawful exJEnv_distinct _ _ _).1.1 (ron_ok 9 _ (by decide +kernel))

theorem exSeq_bin : Decodes (fun n => deserializeBin exJEnv true n (.vec (.int .u8)) [2, 0, 0, 0, 0, 0, 0, 0, 3, 1]) (.seq [.int 3, .int 1]) := by
  rw [C68_bin_deserialize_exactly exJEnv_lawful _ _ (by decide)]
  exact ⟨_, [], (List.append_nil _).symm, .vec (p := [2, 0, 0, 0, 0, 0, 0, 0]) [([3], .int 3), ([1], .int 1)] rfl (by decide) (by decide) (by
    intro q hq
    simp only [List.mem_cons, List.not_mem_nil, or_false] at hq
    rcases hq with rfl | rfl
    · exact .int (by decide) (by decide) (by decide)
    · exact .int (by decide) (by decide) (by decide))⟩

example : Decodes (fun n => deserializeBin exJEnv true n (.linked (.int .u8)) [2, 0, 0, 0, 0, 0, 0, 0, 3, 1]) (.seq [.int 3, .int 1]) ∧
    Decodes (fun n => deserializeBin exJEnv true n (.hset (.int .u8)) [2, 0, 0, 0, 0, 0, 0, 0, 3, 1]) (.seq [.int 3, .int 1]) := by
  have h := C99_bin_vec_others (chk := true) exJEnv_lawful (by decide) exSeq_bin
  exact ⟨h.1, by simpa [firsts] using h.2.2 rfl⟩

example : Decodes (fun n => deserializeBin exJEnv true n (.vec (.int .u8)) [2, 0, 0, 0, 0, 0, 0, 0, 3, 1]) (.seq [.int 3, .int 1]) :=
  C99_bin_linked_vec exJEnv_lawful (by decide) (C99_bin_vec_others (chk := true) exJEnv_lawful (by decide) exSeq_bin).1 (by decide)

/-- `struct S { a: u8, b: bool }` and `struct T(u8, bool)`. -/
noncomputable def exTwo : Env := lawEnv [.struct [{ name := ['a'], ty := .int .u8, rename := some ['x'] }, { name := ['b'], ty := .bool }] false false,
  .tuple [.int .u8, .bool] false] []

example (d : List Byte) (hd : d.length ≤ isizeMax) (vs : List Val) :
    Decodes (fun n => deserializeBin exTwo true n (.named 0) d) (.struct vs) ↔
      Decodes (fun n => deserializeBin exTwo true n (.named 1) d) (.struct vs) :=
  C99_bin_struct_tuple (lawEnv_lawful _ _) (i := 0) (j := 1) rfl rfl (by simp) d hd vs

end NS
