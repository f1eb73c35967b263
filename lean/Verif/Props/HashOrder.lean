import Verif.Lemmas.HashOrder
import Verif.Props.Bin
import Verif.Props.BinValues
import Verif.Props.JsonRound
import Verif.Props.RonRound
import Verif.Props.JsonWhole
import Verif.Props.RonWhole
import Verif.Props.Transcode
/-!
# The order in which hash containers are visited (C97)

`Reordered env t v w` (`Verif/Spec/HashOrder.lean`): `w` is `v` with the `HashMap`s and `HashSet`s in it
visited in another order.
-/
namespace NS
variable {env : Env} {fl : FloatOps} {chk : Bool}

/-- **C97** (binary): in whatever order the hash containers of a value are visited when it is written, the same
value comes back, up to this order, and all bytes are read.  The number of bytes does not depend on the order. -/
theorem C97_bin_any_order (hk : LawfulKeys env) (hs : EnumsSmall env) {t : Ty} {v w : Val} (h : Reordered env t v w)
    (hT : HasTy env t v) (hE : BinExact env t v) (hlen : (serializeBin env t v).length ≤ isizeMax) :
    (serializeBin env t w).length = (serializeBin env t v).length ∧
      ∃ v', Reordered env t v v' ∧
        Returns (fun n => deserializeBin env chk n t (serializeBin env t w)) (.ok v' (serializeBin env t v).length) := by
  have hl : (serializeBin env t w).length = (serializeBin env t v).length := (reordered_binLen h).symm
  refine ⟨hl, w, h, ?_⟩
  rw [← hl]
  exact C01_bin_round_trip_exact hk hs t w (reordered_typed h hT) (reordered_binExact h hE) (hl ▸ hlen)

/-- **C97** (JSON): the same for texts. -/
theorem C97_json_any_order (hk : LawfulKeys env) (hfl : FloatLaws fl) (hE : JsonEnvOk env) {t : Ty} {v w : Val}
    (h : Reordered env t v w) (hT : HasTy env t v) (hX : JsonExact env t v) {txt : List Char}
    (hw : serializeJson env fl chk t w = some txt) :
    ∃ v', Reordered env t v v' ∧ Decodes (fun n => deserializeJson env fl n t txt) v' := by
  refine ⟨w, h, ?_⟩
  unfold serializeJson at hw
  split at hw
  · cases hw
  · injection hw with hw
    subst hw
    exact json_roundtrip hk hfl hE (reordered_typed h hT) ((reordered_jsonExact h hX).text hfl)

/-- **C97** (RON). -/
theorem C97_ron_any_order (hk : LawfulKeys env) (hfl : FloatLaws fl) (hE : RonEnvOk env) {t : Ty} {v w : Val}
    (h : Reordered env t v w) (hT : HasTy env t v) (hX : RonExact env t v) {txt : List Char}
    (hw : serializeRon env fl chk t w = some txt) :
    ∃ v', Reordered env t v v' ∧ Decodes (fun n => deserializeRon env fl n t txt) v' := by
  refine ⟨w, h, ?_⟩
  unfold serializeRon at hw
  split at hw
  · cases hw
  · injection hw with hw
    subst hw
    exact ron_round hk hfl hE (reordered_typed h hT) ((reordered_ronExact h hX).text hfl hE)

/-! ## Written from a hash container, read into a sorted one -/

theorem keys_of_typed {k t : Ty} {es : List Val} (hT : HasTy env (.hmap k t) (.seq es)) :
    AllEntries es ∧ es.length ≤ u64Max ∧ es.Pairwise fun a b => a.key ≠ b.key := by
  simp only [HasTy, entriesTy_iff] at hT
  exact ⟨fun e he => let ⟨a, b, h, _⟩ := hT.1 e he; ⟨a, b, h⟩, hT.2.1, hT.2.2.2⟩

theorem goodEntries_of {k t : Ty} {es : List Val} (hT : HasTy env (.hmap k t) (.seq es)) (hE : BinExact env (.hmap k t) (.seq es)) :
    GoodEntries env k t es := by
  have hA := (keys_of_typed hT).1
  simp only [HasTy, entriesTy_iff] at hT
  simp only [BinExact, Holds, holdsEntries_iff hA] at hE
  intro e he
  obtain ⟨a, b, rfl, h1, h2⟩ := hT.1 e he
  have := hE.2 a b he
  exact ⟨a, b, rfl, ⟨h1, this.1⟩, h2, this.2⟩

/-- **C97**: a `HashMap` written in binary form reads as the `BTreeMap` with the same entries, whichever order it
was visited in. -/
theorem C97_bin_hash_to_btree (hk : LawfulKeys env) (hs : EnumsSmall env) {k t : Ty} {es es' : List Val}
    (hT : HasTy env (.hmap k t) (.seq es)) (hE : BinExact env (.hmap k t) (.seq es))
    (hlen : (serializeBin env (.hmap k t) (.seq es)).length ≤ isizeMax) (hp : es.Perm es') :
    ∃ r : List Val, r.Perm es ∧ r.Pairwise (fun a b => env.cmp a.key b.key = .lt) ∧
      ∃ l, Returns (fun n => deserializeBin env chk n (.bmap k t) (serializeBin env (.hmap k t) (.seq es))) (.ok (.seq r) l) ∧
        Returns (fun n => deserializeBin env chk n (.bmap k t) (serializeBin env (.hmap k t) (.seq es'))) (.ok (.seq r) l) := by
  obtain ⟨hA, hn, hd⟩ := keys_of_typed hT
  obtain ⟨r, hr, hrs⟩ := exists_sorted_entries hk hA hd
  have key : ∀ es' : List Val, es.Perm es' →
      Returns (fun n => deserializeBin env chk n (.bmap k t) (serializeBin env (.hmap k t) (.seq es')))
        (.ok (.seq r) (serializeBin env (.hmap k t) (.seq es)).length) := by
    intro es' hp
    have hA' : AllEntries es' := fun e he => hA e (hp.mem_iff.2 he)
    have hd' : es'.Pairwise fun a b => a.key ≠ b.key := (hp.pairwise_iff (fun h => h.symm)).1 hd
    have hg : GoodEntries env k t es' := fun e he => goodEntries_of hT hE e (hp.mem_iff.2 he)
    have he : serializeBin env (.hmap k t) (.seq es') = entryBytes env k t es' := by
      rw [entryBytes_eq k t es' hA']; rfl
    have hl : (serializeBin env (.hmap k t) (.seq es')).length = (serializeBin env (.hmap k t) (.seq es)).length := by
      simp only [serializeBin, serBin, List.length_append, serBinEntries_len, ← hp.length_eq]
      rw [sum_perm (hp.symm.map _)]
    rw [← hl]
    have hlen' := hlen
    rw [← hl] at hlen'
    rw [he] at hlen' ⊢
    obtain ⟨m, h1, h2, h3, h4⟩ := C10_bin_btreemap (chk := chk) hk hs k t es' hg (by rw [← hp.length_eq]; exact hn) hlen'
    have : m = r := by
      refine sorted_map_ext hk (fun e he => let ⟨a, b, h, _⟩ := h2 e he; ⟨a, b, h⟩) (fun e he => hA e (hr.mem_iff.1 he)) h3 hrs fun q => ?_
      rw [h4, ← lastVal_mapGet hA' hd', mapGet_perm hA' hd' (hr.trans hp)]
    exact this ▸ h1
  exact ⟨r, hr, hrs, _, key es (.refl _), key es' hp⟩

/-- **C97**: the same for `HashSet` and `BTreeSet`. -/
theorem C97_bin_hashset_to_btree (hk : LawfulKeys env) (hs : EnumsSmall env) {t : Ty} {es es' : List Val}
    (hT : HasTy env (.hset t) (.seq es)) (hE : BinExact env (.hset t) (.seq es))
    (hlen : (serializeBin env (.hset t) (.seq es)).length ≤ isizeMax) (hp : es.Perm es') :
    ∃ r : List Val, r.Perm es ∧ r.Pairwise (fun a b => env.cmp a b = .lt) ∧
      ∃ l, Returns (fun n => deserializeBin env chk n (.bset t) (serializeBin env (.hset t) (.seq es))) (.ok (.seq r) l) ∧
        Returns (fun n => deserializeBin env chk n (.bset t) (serializeBin env (.hset t) (.seq es'))) (.ok (.seq r) l) := by
  simp only [HasTy, AllTy_iff] at hT
  simp only [BinExact, Holds, holdsAll_iff] at hE
  obtain ⟨r, hr, hrs⟩ := exists_sorted hk hT.2.2.2
  have key : ∀ es' : List Val, es.Perm es' →
      Returns (fun n => deserializeBin env chk n (.bset t) (serializeBin env (.hset t) (.seq es')))
        (.ok (.seq r) (serializeBin env (.hset t) (.seq es)).length) := by
    intro es' hp
    have he : serializeBin env (.hset t) (.seq es') = elemBytes env t es' := by rw [elemBytes_eq]; rfl
    have hl : (serializeBin env (.hset t) (.seq es')).length = (serializeBin env (.hset t) (.seq es)).length := by
      simp only [serializeBin, serBin, List.length_append, serBinAll_len, ← hp.length_eq]
      rw [sum_perm (hp.symm.map _)]
    rw [← hl]
    have hlen' := hlen
    rw [← hl] at hlen'
    rw [he] at hlen' ⊢
    obtain ⟨m, h1, h3, h4⟩ := C10_bin_btreeset (chk := chk) hk hs t es'
      (fun e he => ⟨hT.1 e (hp.mem_iff.2 he), hE.2 e (hp.mem_iff.2 he)⟩) (by rw [← hp.length_eq]; exact hT.2.1) hlen'
    have : m = r := sorted_ext hk h3 hrs fun q => by rw [h4, (hr.trans hp).mem_iff]
    exact this ▸ h1
  exact ⟨r, hr, hrs, _, key es (.refl _), key es' hp⟩

/-- **C97** (JSON): a text that reads as a `HashMap` reads as the `BTreeMap` with the same entries. -/
theorem C97_json_map_sorted (hfl : FloatLaws fl) (hk : LawfulKeys env) (hd : DistinctProg env) {k t : Ty}
    {txt : List Char} {es r : List Val} (h : Decodes (fun n => deserializeJson env fl n (.hmap k t) txt) (.seq es))
    (hp : r.Perm es) (hr : r.Pairwise fun a b => env.cmp a.key b.key = .lt) :
    Decodes (fun n => deserializeJson env fl n (.bmap k t) txt) (.seq r) := by
  rw [C66_json_reads_exactly hfl hk hd] at h ⊢
  rcases h with ⟨ls, hb, h⟩ | ⟨a, b, rest, _, h⟩
  · cases h with
    | hmap ps h1 h2 h3 h4 =>
      refine .inl ⟨_, hb, .bmap ps h1 h2 ⟨fun e he => h3.1 e (hp.mem_iff.1 he), fun q => ?_⟩ hr⟩
      rw [← h3.2 q]
      refine mapGet_perm h3.1 ?_ hp q
      have := firsts_pairwise (ps.map fun p => p.1.2)
      rwa [← h4, List.pairwise_map] at this
  · cases h

/-- **C97** (JSON): a text that reads as a `HashSet` reads as the `BTreeSet` with the same elements. -/
theorem C97_json_set_sorted (hfl : FloatLaws fl) (hk : LawfulKeys env) (hd : DistinctProg env) {t : Ty}
    {txt : List Char} {es r : List Val} (h : Decodes (fun n => deserializeJson env fl n (.hset t) txt) (.seq es))
    (hp : r.Perm es) (hr : r.Pairwise fun a b => env.cmp a b = .lt) :
    Decodes (fun n => deserializeJson env fl n (.bset t) txt) (.seq r) := by
  rw [C66_json_reads_exactly hfl hk hd] at h ⊢
  rcases h with ⟨ls, hb, h⟩ | ⟨a, b, rest, _, h⟩
  · cases h with
    | hset ps h1 => exact .inl ⟨_, hb, .bset ps h1 ⟨hr, fun q => by rw [hp.mem_iff, firsts_mem]⟩⟩
  · cases h

/-- **C97** (RON): a text that reads as a `HashMap` reads as the `BTreeMap` with the same entries. -/
theorem C97_ron_map_sorted (hfl : FloatLaws fl) (hk : LawfulKeys env) (hd : DistinctProg env) {k t : Ty}
    {txt : List Char} {es r : List Val} (h : Decodes (fun n => deserializeRon env fl n (.hmap k t) txt) (.seq es))
    (hp : r.Perm es) (hr : r.Pairwise fun a b => env.cmp a.key b.key = .lt) :
    Decodes (fun n => deserializeRon env fl n (.bmap k t) txt) (.seq r) := by
  rw [C64_ron_reads_exactly hfl hk hd] at h ⊢
  rcases h with ⟨x, hb, h⟩ | ⟨a, b, rest, _, h⟩
  · cases h with
    | hmap ps h1 h2 h3 h4 =>
      refine .inl ⟨_, hb, .bmap ps h1 h2 ⟨fun e he => h3.1 e (hp.mem_iff.1 he), fun q => ?_⟩ hr⟩
      rw [← h3.2 q]
      refine mapGet_perm h3.1 ?_ hp q
      have := firsts_pairwise (ps.map fun p => p.1.2)
      rwa [← h4, List.pairwise_map] at this
  · cases h

/-- **C97** (RON): a text that reads as a `HashSet` reads as the `BTreeSet` with the same elements. -/
theorem C97_ron_set_sorted (hfl : FloatLaws fl) (hk : LawfulKeys env) (hd : DistinctProg env) {t : Ty}
    {txt : List Char} {es r : List Val} (h : Decodes (fun n => deserializeRon env fl n (.hset t) txt) (.seq es))
    (hp : r.Perm es) (hr : r.Pairwise fun a b => env.cmp a b = .lt) :
    Decodes (fun n => deserializeRon env fl n (.bset t) txt) (.seq r) := by
  rw [C64_ron_reads_exactly hfl hk hd] at h ⊢
  rcases h with ⟨x, hb, h⟩ | ⟨a, b, rest, _, h⟩
  · cases h with
    | hset ps h1 => exact .inl ⟨_, hb, .bset ps h1 ⟨hr, fun q => by rw [hp.mem_iff, firsts_mem]⟩⟩
  · cases h

/-- **C97** (JSON): the texts of one `HashMap` visited in two orders read as the same `BTreeMap`. -/
theorem C97_json_hash_to_btree (hfl : FloatLaws fl) (hk : LawfulKeys env) (hd : DistinctProg env) (hE : JsonEnvOk env)
    {k t : Ty} {es es' : List Val} (hT : HasTy env (.hmap k t) (.seq es)) (hX : JsonExact env (.hmap k t) (.seq es))
    (hp : es.Perm es') {txt txt' : List Char} (hw : serializeJson env fl chk (.hmap k t) (.seq es) = some txt)
    (hw' : serializeJson env fl chk (.hmap k t) (.seq es') = some txt') :
    ∃ r : List Val, r.Perm es ∧ r.Pairwise (fun a b => env.cmp a.key b.key = .lt) ∧
      Decodes (fun n => deserializeJson env fl n (.bmap k t) txt) (.seq r) ∧
      Decodes (fun n => deserializeJson env fl n (.bmap k t) txt') (.seq r) := by
  obtain ⟨hA, _, hdist⟩ := keys_of_typed hT
  obtain ⟨r, hr, hrs⟩ := exists_sorted_entries hk hA hdist
  have key : ∀ (es' : List Val) (txt : List Char), es.Perm es' → serializeJson env fl chk (.hmap k t) (.seq es') = some txt →
      Decodes (fun n => deserializeJson env fl n (.bmap k t) txt) (.seq r) := by
    intro es' txt hp hw
    have ho : Reordered env (.hmap k t) (.seq es) (.seq es') := by
      have := Reordered.hmap (env := env) (k := k) (t := t) (ws := es') (es.map fun e => (e.key, match e with | .entry _ b => (b, b) | x => (x, x)))
        (by intro p hp; obtain ⟨e, he, rfl⟩ := List.mem_map.1 hp; obtain ⟨a, b, rfl⟩ := hA e he; exact .same)
        (by
          rw [List.map_map]
          rw [List.map_congr_left (g := id) (by intro e he; obtain ⟨a, b, rfl⟩ := hA e he; rfl), List.map_id]
          exact hp)
      rwa [List.map_map, List.map_congr_left (g := id) (by intro e he; obtain ⟨a, b, rfl⟩ := hA e he; rfl), List.map_id] at this
    unfold serializeJson at hw
    split at hw
    · cases hw
    · injection hw with hw
      subst hw
      exact C97_json_map_sorted hfl hk hd (json_roundtrip hk hfl hE (reordered_typed ho hT) ((reordered_jsonExact ho hX).text hfl))
        (hr.trans hp) hrs
  exact ⟨r, hr, hrs, key es txt (.refl _) hw, key es' txt' hp hw'⟩

/-- **C97** (RON): the texts of one `HashMap` visited in two orders read as the same `BTreeMap`. -/
theorem C97_ron_hash_to_btree (hfl : FloatLaws fl) (hk : LawfulKeys env) (hd : DistinctProg env) (hE : RonEnvOk env)
    {k t : Ty} {es es' : List Val} (hT : HasTy env (.hmap k t) (.seq es)) (hX : RonExact env (.hmap k t) (.seq es))
    (hp : es.Perm es') {txt txt' : List Char} (hw : serializeRon env fl chk (.hmap k t) (.seq es) = some txt)
    (hw' : serializeRon env fl chk (.hmap k t) (.seq es') = some txt') :
    ∃ r : List Val, r.Perm es ∧ r.Pairwise (fun a b => env.cmp a.key b.key = .lt) ∧
      Decodes (fun n => deserializeRon env fl n (.bmap k t) txt) (.seq r) ∧
      Decodes (fun n => deserializeRon env fl n (.bmap k t) txt') (.seq r) := by
  obtain ⟨hA, _, hdist⟩ := keys_of_typed hT
  obtain ⟨r, hr, hrs⟩ := exists_sorted_entries hk hA hdist
  have key : ∀ (es' : List Val) (txt : List Char), es.Perm es' → serializeRon env fl chk (.hmap k t) (.seq es') = some txt →
      Decodes (fun n => deserializeRon env fl n (.bmap k t) txt) (.seq r) := by
    intro es' txt hp hw
    have ho : Reordered env (.hmap k t) (.seq es) (.seq es') := by
      have := Reordered.hmap (env := env) (k := k) (t := t) (ws := es') (es.map fun e => (e.key, match e with | .entry _ b => (b, b) | x => (x, x)))
        (by intro p hp; obtain ⟨e, he, rfl⟩ := List.mem_map.1 hp; obtain ⟨a, b, rfl⟩ := hA e he; exact .same)
        (by
          rw [List.map_map]
          rw [List.map_congr_left (g := id) (by intro e he; obtain ⟨a, b, rfl⟩ := hA e he; rfl), List.map_id]
          exact hp)
      rwa [List.map_map, List.map_congr_left (g := id) (by intro e he; obtain ⟨a, b, rfl⟩ := hA e he; rfl), List.map_id] at this
    unfold serializeRon at hw
    split at hw
    · cases hw
    · injection hw with hw
      subst hw
      exact C97_ron_map_sorted hfl hk hd (ron_round hk hfl hE (reordered_typed ho hT) ((reordered_ronExact ho hX).text hfl hE))
        (hr.trans hp) hrs
  exact ⟨r, hr, hrs, key es txt (.refl _) hw, key es' txt' hp hw'⟩

/-! ### Examples: a `HashMap<u8, HashSet<bool>>` in two orders -/

/-- `{1: {true, false}, 2: {}}` -/
def exHash : Val := .seq [.entry (.int 1) (.seq [.bool true, .bool false]), .entry (.int 2) (.seq [])]
/-- `{2: {}, 1: {false, true}}` -/
def exHash' : Val := .seq [.entry (.int 2) (.seq []), .entry (.int 1) (.seq [.bool false, .bool true])]

theorem exHash_reordered : Reordered exJEnv (.hmap (.int .u8) (.hset .bool)) exHash exHash' :=
  .hmap [(.int 1, .seq [.bool true, .bool false], .seq [.bool false, .bool true]), (.int 2, .seq [], .seq [])]
    (by
      intro p hp
      simp only [List.mem_cons, List.not_mem_nil, or_false] at hp
      rcases hp with rfl | rfl
      · exact .hset (.swap ..)
      · exact .same)
    (.swap ..)

theorem exHash_typed : HasTy exJEnv (.hmap (.int .u8) (.hset .bool)) exHash := by
  simp [exHash, HasTy, EntriesTy, AllTy, IntKind.inRange, IntKind.lo, IntKind.hi, IntKind.signed, IntKind.bytes, Val.key, u64Max]

theorem exHash_exact : BinExact exJEnv (.hmap (.int .u8) (.hset .bool)) exHash ∧ JsonExact exJEnv (.hmap (.int .u8) (.hset .bool)) exHash ∧
    RonExact exJEnv (.hmap (.int .u8) (.hset .bool)) exHash := by
  refine ⟨?_, ?_, ?_⟩
  · simp [exHash, BinExact, Holds, HoldsEntries, HoldsAll]
  · simp [exHash, JsonExact, Holds, HoldsEntries, HoldsAll, JsonNodeOk, IntKind.textual]
  · simp [exHash, RonExact, Holds, HoldsEntries, HoldsAll, RonNodeOk, IntKind.textual]

example : ∃ v', Reordered exJEnv (.hmap (.int .u8) (.hset .bool)) exHash v' ∧
    Returns (fun n => deserializeBin exJEnv true n (.hmap (.int .u8) (.hset .bool)) (serializeBin exJEnv (.hmap (.int .u8) (.hset .bool)) exHash'))
      (.ok v' (serializeBin exJEnv (.hmap (.int .u8) (.hset .bool)) exHash).length) :=
  (C97_bin_any_order exJEnv_lawful exJEnv_small exHash_reordered exHash_typed exHash_exact.1 (by decide +kernel)).2

example : ∃ v', Reordered exJEnv (.hmap (.int .u8) (.hset .bool)) exHash v' ∧
    Decodes (fun n => deserializeJson exJEnv toyFloat n (.hmap (.int .u8) (.hset .bool)) (chars "{2:[],1:[false,true]}")) v' :=
  C97_json_any_order (chk := true) exJEnv_lawful toyFloat_laws exJEnv_ok exHash_reordered exHash_typed exHash_exact.2.1 (by decide +kernel)

example : ∃ v', Reordered exJEnv (.hmap (.int .u8) (.hset .bool)) exHash v' ∧
    Decodes (fun n => deserializeRon exJEnv toyFloat n (.hmap (.int .u8) (.hset .bool))
      ((serializeRon exJEnv toyFloat true (.hmap (.int .u8) (.hset .bool)) exHash').getD [])) v' :=
  C97_ron_any_order (chk := true) exJEnv_lawful toyFloat_laws exJEnv_ron exHash_reordered exHash_typed exHash_exact.2.2 (by decide +kernel)

theorem exHash2_typed : HasTy exJEnv (.hmap (.int .u8) .bool) (.seq [.entry (.int 2) (.bool true), .entry (.int 1) (.bool false)]) := by
  simp [HasTy, EntriesTy, IntKind.inRange, IntKind.lo, IntKind.hi, IntKind.signed, IntKind.bytes, Val.key, u64Max]

example : ∃ r : List Val, r.Perm [.entry (.int 2) (.bool true), .entry (.int 1) (.bool false)] ∧
    r.Pairwise (fun a b => exJEnv.cmp a.key b.key = .lt) ∧
    Decodes (fun n => deserializeJson exJEnv toyFloat n (.bmap (.int .u8) .bool) (chars "{2:true,1:false}")) (.seq r) ∧
    Decodes (fun n => deserializeJson exJEnv toyFloat n (.bmap (.int .u8) .bool) (chars "{1:false,2:true}")) (.seq r) :=
  C97_json_hash_to_btree (chk := true) (es' := [.entry (.int 1) (.bool false), .entry (.int 2) (.bool true)]) toyFloat_laws
    exJEnv_lawful exJEnv_distinct exJEnv_ok exHash2_typed
    (by simp [JsonExact, Holds, HoldsEntries, JsonNodeOk, IntKind.textual]) (.swap ..) (by decide +kernel) (by decide +kernel)

example : ∃ r : List Val, r.Perm [.entry (.int 2) (.bool true), .entry (.int 1) (.bool false)] ∧
    r.Pairwise (fun a b => exJEnv.cmp a.key b.key = .lt) ∧
    Decodes (fun n => deserializeRon exJEnv toyFloat n (.bmap (.int .u8) .bool)
      ((serializeRon exJEnv toyFloat true (.hmap (.int .u8) .bool) (.seq [.entry (.int 2) (.bool true), .entry (.int 1) (.bool false)])).getD [])) (.seq r) ∧
    Decodes (fun n => deserializeRon exJEnv toyFloat n (.bmap (.int .u8) .bool)
      ((serializeRon exJEnv toyFloat true (.hmap (.int .u8) .bool) (.seq [.entry (.int 1) (.bool false), .entry (.int 2) (.bool true)])).getD [])) (.seq r) :=
  C97_ron_hash_to_btree (chk := true) (es' := [.entry (.int 1) (.bool false), .entry (.int 2) (.bool true)]) toyFloat_laws
    exJEnv_lawful exJEnv_distinct exJEnv_ron exHash2_typed
    (by simp [RonExact, Holds, HoldsEntries, RonNodeOk, IntKind.textual]) (.swap ..) (by decide +kernel) (by decide +kernel)

example : ∃ r : List Val, r.Perm [.entry (.int 2) (.bool true), .entry (.int 1) (.bool false)] ∧
    r.Pairwise (fun a b => exJEnv.cmp a.key b.key = .lt) ∧
    ∃ l, Returns (fun n => deserializeBin exJEnv true n (.bmap (.int .u8) .bool)
        (serializeBin exJEnv (.hmap (.int .u8) .bool) (.seq [.entry (.int 2) (.bool true), .entry (.int 1) (.bool false)]))) (.ok (.seq r) l) ∧
      Returns (fun n => deserializeBin exJEnv true n (.bmap (.int .u8) .bool)
        (serializeBin exJEnv (.hmap (.int .u8) .bool) (.seq [.entry (.int 1) (.bool false), .entry (.int 2) (.bool true)]))) (.ok (.seq r) l) :=
  C97_bin_hash_to_btree exJEnv_lawful exJEnv_small exHash2_typed (by simp [BinExact, Holds, HoldsEntries]) (by decide +kernel) (.swap ..)

example : ∃ r : List Val, r.Perm [.int 3, .int 1] ∧ r.Pairwise (fun a b => exJEnv.cmp a b = .lt) ∧
    ∃ l, Returns (fun n => deserializeBin exJEnv true n (.bset (.int .u8)) (serializeBin exJEnv (.hset (.int .u8)) (.seq [.int 3, .int 1]))) (.ok (.seq r) l) ∧
      Returns (fun n => deserializeBin exJEnv true n (.bset (.int .u8)) (serializeBin exJEnv (.hset (.int .u8)) (.seq [.int 1, .int 3]))) (.ok (.seq r) l) :=
  C97_bin_hashset_to_btree exJEnv_lawful exJEnv_small
    (by simp [HasTy, AllTy, IntKind.inRange, IntKind.lo, IntKind.hi, IntKind.signed, IntKind.bytes, u64Max])
    (by simp [BinExact, Holds, HoldsAll]) (by decide +kernel) (.swap ..)

theorem exSet_typed : HasTy exJEnv (.hset (.int .u8)) (.seq [.int 3, .int 1]) := by
  simp [HasTy, AllTy, IntKind.inRange, IntKind.lo, IntKind.hi, IntKind.signed, IntKind.bytes, u64Max]

/-- `[3,1]` reads as the `HashSet` visited in the order 3, 1 and as the `BTreeSet` of the two numbers. -/
example : ∃ r : List Val, r.Perm [.int 3, .int 1] ∧
    Decodes (fun n => deserializeJson exJEnv toyFloat n (.bset (.int .u8)) (chars "[3,1]")) (.seq r) := by
  obtain ⟨r, h1, h2⟩ := exists_sorted exJEnv_lawful (es := [.int 3, .int 1]) (by simp)
  have h := json_roundtrip exJEnv_lawful toyFloat_laws exJEnv_ok exSet_typed
    ((show JsonExact exJEnv _ _ by simp [JsonExact, Holds, HoldsAll, JsonNodeOk, IntKind.textual]).text toyFloat_laws)
  rw [show serJson exJEnv toyFloat (.hset (.int .u8)) (.seq [.int 3, .int 1]) = chars "[3,1]" by decide +kernel] at h
  exact ⟨r, h1, C97_json_set_sorted toyFloat_laws exJEnv_lawful exJEnv_distinct h h1 h2⟩

example : ∃ r : List Val, r.Perm [.int 3, .int 1] ∧
    Decodes (fun n => deserializeRon exJEnv toyFloat n (.bset (.int .u8)) (chars "[3,1]")) (.seq r) := by
  obtain ⟨r, h1, h2⟩ := exists_sorted exJEnv_lawful (es := [.int 3, .int 1]) (by simp)
  have h := ron_round exJEnv_lawful toyFloat_laws exJEnv_ron exSet_typed
    ((show RonExact exJEnv _ _ by simp [RonExact, Holds, HoldsAll, RonNodeOk, IntKind.textual]).text toyFloat_laws exJEnv_ron)
  rw [show serRon exJEnv toyFloat (.hset (.int .u8)) (.seq [.int 3, .int 1]) = chars "[3,1]" by decide +kernel] at h
  exact ⟨r, h1, C97_ron_set_sorted toyFloat_laws exJEnv_lawful exJEnv_distinct h h1 h2⟩

end NS
