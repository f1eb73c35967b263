import Verif.Lemmas.LittleEndian
import Verif.Lemmas.BinMore
import Verif.Lemmas.Mono
import Verif.Props.Examples
/-! # Properties C09–C11: lenient decoding, containers, times -/
set_option linter.unusedVariables false
namespace NS
variable {env : Env} {chk : Bool}

/-! ## C09 canonicalisation -/

/-- **C09**: whenever some bytes decode to `v`, decoding the re-encoding of `v` gives `v`. -/
theorem C09_bin_reencode (hk : LawfulKeys env) (hs : EnumsSmall env) (hsane : SaneEnv env) (t : Ty)
    (d : List Byte) (hd : d.length ≤ isizeMax) (v : Val) (o' : Nat)
    (h : Returns (fun n => deserializeBin env chk n t d) (.ok v o'))
    (hlen : (serializeBin env t v).length ≤ isizeMax) :
    Returns (fun n => deserializeBin env chk n t (serializeBin env t v))
      (.ok v (serializeBin env t v).length) := by
  obtain ⟨n, hn⟩ := h
  obtain ⟨hT, hE⟩ := deBin_typed hk hsane hd n t 0 v o' (hn n (Nat.le_refl _))
  have := readsBack (chk := chk) hk hs hlen v t hT hE 0 ⟨[], [], by simp [serializeBin], rfl⟩
  simpa [deserializeBin, serializeBin] using this

/-- **C09**: `bool` reads any non-zero byte as `true`. -/
theorem C09_bin_bool_lenient (pre post : List Byte) (b : Byte)
    (hlen : (pre ++ b :: post).length ≤ isizeMax) :
    Returns (fun n => deBin env chk (pre ++ b :: post) n .bool pre.length)
      (.ok (.bool (decide (b ≠ 0))) (pre.length + 1)) := by
  refine deBin_returns (n := 1) ?_ (by simp)
  simp only [deBin]
  rw [M.bind_ok (readPrim_eq (by simp) hlen)]
  simp [leVal]
  have : b.toNat = 0 ↔ b = 0 := by
    constructor
    · intro h; exact UInt8.toNat_inj.1 (by simpa using h)
    · rintro rfl; rfl
  by_cases hb : b = 0
  · subst hb; rfl
  · simp [hb]; exact fun h => hb (this.1 h)

/-- **C09**: `Option` reads any tag other than 1 as `None` and leaves the rest unread. -/
theorem C09_bin_option_lenient (t : Ty) (pre post : List Byte) (b : Byte) (hb : b ≠ 1)
    (hlen : (pre ++ b :: post).length ≤ isizeMax) :
    Returns (fun n => deBin env chk (pre ++ b :: post) n (.option t) pre.length)
      (.ok .none (pre.length + 1)) := by
  refine deBin_returns (n := 1) ?_ (by simp)
  simp only [deBin]
  rw [M.bind_ok (readPrim_eq (by simp) hlen)]
  have : ¬ b.toNat = 1 := fun h => hb (UInt8.toNat_inj.1 (by simpa using h))
  simp [leVal, this]

/-- Lenient bytes do decode: tag 7 in an `Option<u8>` between a bool `2` and a `u8`. -/
example : Returns (fun n => deserializeBin exEnv chk n (.triple .bool (.option (.int .u8)) (.int .u8))
    [2, 7, 5]) (.ok (.seq [.bool true, .none, .int 5]) 3) := by
  refine deBin_returns (n := 2) ?_ (by simp)
  cases chk <;> rfl

/-- The example environment meets `SaneEnv`: its proxy is the identity on `u8`, its only skipped
field defaults to the empty string. -/
example : SaneEnv exEnv := by
  constructor
  · intro i fs cd nn h f hf hs
    match i with
    | 0 =>
      simp [exNode] at h
      obtain ⟨rfl, _, _⟩ := h
      simp at hf
      rcases hf with rfl | rfl | rfl <;> simp at hs
      simp [HasTy]
    | 1 => simp [exEnum] at h
    | n + 2 => simp at h
  · intro _ _ _ _ _; rfl
  · intro i px h p hT hE
    match i with
    | 0 =>
      have : px = _ := (Option.some.inj h).symm
      subst this
      exact ⟨hT, hE, rfl⟩
    | n + 1 => simp [exEnv, lawEnv] at h

/-! ## C10 maps and sets -/

/-- A sequence of map entries written one after the other behind its count. -/
def entryBytes (env : Env) (k t : Ty) (es : List Val) : List Byte :=
  lenBytes es.length ++ es.flatMap fun
    | .entry a b => serializeBin env k a ++ serializeBin env t b
    | _ => []

/-- A sequence of set elements written behind its count. -/
def elemBytes (env : Env) (t : Ty) (es : List Val) : List Byte :=
  lenBytes es.length ++ es.flatMap (serializeBin env t)

theorem entryBytes_eq (k t : Ty) (es : List Val) (h : ∀ e ∈ es, ∃ a b, e = .entry a b) :
    entryBytes env k t es = serUsize es.length ++ serBinEntries env k t es := by
  unfold entryBytes
  congr 1
  · rw [serUsize, leBytes_byteOf]; rfl
  · induction es with
    | nil => rfl
    | cons e es ih =>
      obtain ⟨a, b, rfl⟩ := h e (by simp)
      rw [List.flatMap_cons, ih fun e he => h e (by simp [he])]
      simp only [serBinEntries, serializeBin, List.append_assoc]

theorem elemBytes_eq (t : Ty) (es : List Val) :
    elemBytes env t es = serUsize es.length ++ serBinAll env t es := by
  unfold elemBytes
  congr 1
  · rw [serUsize, leBytes_byteOf]; rfl
  · rw [serBinAll_eq]; rfl

/-- Entries of the given types, in any order; keys may repeat. -/
def GoodEntries (env : Env) (k t : Ty) (es : List Val) : Prop :=
  ∀ e ∈ es, ∃ a b, e = .entry a b ∧ (HasTy env k a ∧ BinExact env k a) ∧
    (HasTy env t b ∧ BinExact env t b)

theorem readMap {c : Coll} {d : List Byte} (hk : LawfulKeys env) (hs : EnumsSmall env)
    (hd : d.length ≤ isizeMax) {k t : Ty} {es : List Val} (hg : GoodEntries env k t es) (o : Nat)
    (h : At d o (serBinEntries env k t es)) :
    Returns (fun n => insertLoop env c (entryM (deBin env chk d n k) (deBin env chk d n t)) es.length [] o)
      (.ok (es.foldl (collInsert env c) []) (o + (serBinEntries env k t es).length)) := by
  obtain ⟨n0, h0⟩ := entries_at (chk := chk) es (fun w _ t hT hE => readsBack hk hs hd w t hT hE)
    (entries_of_ok hg).1 (entries_of_ok hg).2 o h
  exact ⟨n0, fun n hn => insertLoop_ok (h0 n hn) []⟩

/-- **C10** for `BTreeMap`: decoding any sequence of entries gives a strictly ascending map in
which every key has the value of its last entry (and other keys have none). -/
theorem C10_bin_btreemap (hk : LawfulKeys env) (hs : EnumsSmall env) (k t : Ty) (es : List Val)
    (hg : GoodEntries env k t es) (hn : es.length ≤ u64Max)
    (hlen : (entryBytes env k t es).length ≤ isizeMax) :
    ∃ m : List Val, Returns (fun n => deserializeBin env chk n (.bmap k t) (entryBytes env k t es))
        (.ok (.seq m) (entryBytes env k t es).length) ∧ GoodEntries env k t m ∧
      m.Pairwise (fun a b => env.cmp a.key b.key = .lt) ∧
      ∀ q, mapGet q m = lastVal q es := by
  rw [entryBytes_eq _ _ _ fun e he => let ⟨a, b, h, _⟩ := hg e he; ⟨a, b, h⟩] at hlen ⊢
  have hA : At (serUsize es.length ++ serBinEntries env k t es) 0 (serUsize es.length ++ serBinEntries env k t es) := ⟨[], [], by simp, rfl⟩
  obtain ⟨h1, h2⟩ := At.append hA
  have hl : (serUsize es.length).length = 8 := by simp [serUsize]
  rw [hl] at h2
  have hE := allEntries_of_ok hg
  refine ⟨es.foldl (collInsert env .bmap) [], ?_, bmap_fold_ok es [] hg (by simp), ?_, ?_⟩
  · apply Returns.succ
    simp only [deserializeBin, deBin]
    refine Returns.bind (Returns.const fun n => readUsize_at h1 (by unfold u64Max at hn; omega) hlen) ?_
    refine Returns.bind (readMap hk hs hlen hg _ h2) ?_
    refine Returns.const fun n => ?_
    simp [hl]
  · exact (bmap_fold_pairwise hk es [] hE (fun _ h => by simp at h) List.Pairwise.nil).2
  · intro q
    rw [bmap_fold_get hk es [] q hE (fun _ h => by simp at h)]
    cases lastVal q es <;> simp [mapGet]

/-- **C10** for `HashMap`. -/
theorem C10_bin_hashmap (hk : LawfulKeys env) (hs : EnumsSmall env) (k t : Ty) (es : List Val)
    (hg : GoodEntries env k t es) (hn : es.length ≤ u64Max)
    (hcap : env.hashCapPanics (env.memSize k + env.memSize t) es.length = false)
    (hlen : (entryBytes env k t es).length ≤ isizeMax) :
    ∃ m : List Val, Returns (fun n => deserializeBin env chk n (.hmap k t) (entryBytes env k t es))
        (.ok (.seq m) (entryBytes env k t es).length) ∧ GoodEntries env k t m ∧
      m.Pairwise (fun a b => a.key ≠ b.key) ∧
      ∀ q, mapGet q m = lastVal q es := by
  rw [entryBytes_eq _ _ _ fun e he => let ⟨a, b, h, _⟩ := hg e he; ⟨a, b, h⟩] at hlen ⊢
  have hA : At (serUsize es.length ++ serBinEntries env k t es) 0 (serUsize es.length ++ serBinEntries env k t es) := ⟨[], [], by simp, rfl⟩
  obtain ⟨h1, h2⟩ := At.append hA
  have hl : (serUsize es.length).length = 8 := by simp [serUsize]
  rw [hl] at h2
  have hE := allEntries_of_ok hg
  refine ⟨es.foldl (collInsert env .hmap) [], ?_, hmap_fold_ok es [] hg (by simp), ?_, ?_⟩
  · apply Returns.succ
    simp only [deserializeBin, deBin]
    refine Returns.bind (Returns.const fun n => readUsize_at h1 (by unfold u64Max at hn; omega) hlen) ?_
    refine Returns.bind (s1 := 0 + 8) (a := ()) (Returns.const fun n => by simp [hashCap, hcap]) ?_
    refine Returns.bind (readMap hk hs hlen hg _ h2) ?_
    refine Returns.const fun n => ?_
    simp [hl]
  · exact (hmap_fold_pairwise hk es [] hE (fun _ h => by simp at h) List.Pairwise.nil).2
  · intro q
    rw [hmap_fold_get hk es [] q hE (fun _ h => by simp at h)]
    cases lastVal q es <;> simp [mapGet]

theorem lastVal_mem {es : List Val} (hE : AllEntries es) (hp : es.Pairwise (fun a b => a.key ≠ b.key))
    (q : Val) : ∀ v, lastVal q es = some v ↔ .entry q v ∈ es := by
  induction es with
  | nil => simp [lastVal]
  | cons e es ih =>
    intro v
    obtain ⟨a, b, rfl⟩ := hE e (by simp)
    have ih := ih (fun w hw => hE w (by simp [hw])) (List.pairwise_cons.1 hp).2
    have hne := (List.pairwise_cons.1 hp).1
    simp only [lastVal]
    cases hl : lastVal q es with
    | some w =>
      have hw := (ih w).1 hl
      have hv := ih v
      rw [hl] at hv
      simp only [List.mem_cons, Val.entry.injEq]
      refine ⟨fun h => .inr (hv.1 h), ?_⟩
      rintro (⟨rfl, rfl⟩ | h)
      · exact absurd rfl (hne (.entry q w) hw)
      · exact hv.2 h
    | none =>
      have hv := ih v
      rw [hl] at hv
      simp only [List.mem_cons, Val.entry.injEq]
      by_cases hq : a = q
      · simp only [hq, if_true, true_and]
        constructor
        · intro h; left; exact (Option.some.inj h).symm
        · rintro (rfl | h)
          · rfl
          · exact absurd (hv.2 h) (by simp)
      · simp only [hq, if_false]
        constructor
        · intro h; simp at h
        · rintro (⟨rfl, _⟩ | h)
          · exact absurd rfl hq
          · exact absurd (hv.2 h) (by simp)

theorem lastVal_perm {es es' : List Val} (h : es.Perm es') (hE : AllEntries es)
    (hp : es.Pairwise (fun a b => a.key ≠ b.key)) (q : Val) : lastVal q es = lastVal q es' := by
  have hE' : AllEntries es' := fun w hw => hE w (h.mem_iff.2 hw)
  have hp' : es'.Pairwise (fun a b => a.key ≠ b.key) :=
    (h.pairwise_iff (fun h => h.symm)).1 hp
  apply Option.ext
  intro v
  rw [lastVal_mem hE hp, lastVal_mem hE' hp', h.mem_iff]

/-- **C10**, order independence: entries with distinct keys decode to the same `BTreeMap` in
whatever order they are written. -/
theorem C10_bin_btreemap_order (hk : LawfulKeys env) (hs : EnumsSmall env) (k t : Ty)
    (es es' : List Val) (hp : es.Perm es') (hd : es.Pairwise (fun a b => a.key ≠ b.key))
    (hg : GoodEntries env k t es) (hn : es.length ≤ u64Max)
    (hlen : (entryBytes env k t es).length ≤ isizeMax)
    (hlen' : (entryBytes env k t es').length ≤ isizeMax) :
    ∃ m, Returns (fun n => deserializeBin env chk n (.bmap k t) (entryBytes env k t es))
        (.ok (.seq m) (entryBytes env k t es).length) ∧
      Returns (fun n => deserializeBin env chk n (.bmap k t) (entryBytes env k t es'))
        (.ok (.seq m) (entryBytes env k t es').length) := by
  have hg' : GoodEntries env k t es' := fun e he => hg e (hp.mem_iff.2 he)
  obtain ⟨m, h1, a1, h2, h3⟩ := C10_bin_btreemap (chk := chk) hk hs k t es hg hn hlen
  obtain ⟨m', h1', a2, h2', h3'⟩ := C10_bin_btreemap (chk := chk) hk hs k t es' hg' (by rw [← hp.length_eq]; exact hn) hlen'
  have hE := allEntries_of_ok hg
  have hE' := allEntries_of_ok hg'
  have hm : m = m' := by
    apply sorted_map_ext hk (allEntries_of_ok a1) (allEntries_of_ok a2) h2 h2'
    intro q
    rw [h3, h3', lastVal_perm hp hE hd]
  exact ⟨m, h1, hm ▸ h1'⟩

/-- Two entries with the same key, then another key. -/
example : GoodEntries exEnv (.int .u8) .bool [.entry (.int 1) (.bool true), .entry (.int 1) (.bool false),
    .entry (.int 0) (.bool true)] := by
  intro e he
  simp at he
  rcases he with rfl | rfl | rfl <;>
    exact ⟨_, _, rfl, by simp [HasTy, BinExact, Holds, IntKind.inRange, IntKind.lo, IntKind.hi,
      IntKind.signed, IntKind.bytes]⟩

/-- **C10** for `BTreeSet`: decoding any sequence of elements gives the strictly ascending list
of the elements that occur; hence the result depends only on which elements occur. -/
theorem C10_bin_btreeset (hk : LawfulKeys env) (hs : EnumsSmall env) (t : Ty) (es : List Val)
    (hg : ∀ e ∈ es, HasTy env t e ∧ BinExact env t e) (hn : es.length ≤ u64Max)
    (hlen : (elemBytes env t es).length ≤ isizeMax) :
    ∃ m : List Val, Returns (fun n => deserializeBin env chk n (.bset t) (elemBytes env t es))
        (.ok (.seq m) (elemBytes env t es).length) ∧
      m.Pairwise (fun a b => env.cmp a b = .lt) ∧ ∀ q, q ∈ m ↔ q ∈ es := by
  rw [elemBytes_eq] at hlen ⊢
  have hA : At (serUsize es.length ++ serBinAll env t es) 0 (serUsize es.length ++ serBinAll env t es) := ⟨[], [], by simp, rfl⟩
  obtain ⟨h1, h2⟩ := At.append hA
  have hl : (serUsize es.length).length = 8 := by simp [serUsize]
  rw [hl] at h2
  refine ⟨es.foldl (collInsert env .bset) [], ?_, bset_fold_pairwise hk es [] List.Pairwise.nil, ?_⟩
  · apply Returns.succ
    simp only [deserializeBin, deBin]
    refine Returns.bind (Returns.const fun n => readUsize_at h1 (by unfold u64Max at hn; omega) hlen) ?_
    obtain ⟨n0, h0⟩ := items_at (chk := chk) es (fun w _ t hT hE => readsBack hk hs hlen w t hT hE)
      (AllTy_iff.2 fun v hv => (hg v hv).1) (HoldsAll_iff.2 fun v hv => (hg v hv).2) _ h2
    refine Returns.bind ⟨n0, fun n hn => insertLoop_ok (h0 n hn) []⟩ ?_
    refine Returns.const fun n => ?_
    simp [hl]
  · intro q
    rw [bset_fold_mem hk]; simp

/-- **C10** for `HashSet`. -/
theorem C10_bin_hashset (hk : LawfulKeys env) (hs : EnumsSmall env) (t : Ty) (es : List Val)
    (hg : ∀ e ∈ es, HasTy env t e ∧ BinExact env t e) (hn : es.length ≤ u64Max)
    (hcap : env.hashCapPanics (env.memSize t) es.length = false)
    (hlen : (elemBytes env t es).length ≤ isizeMax) :
    ∃ m : List Val, Returns (fun n => deserializeBin env chk n (.hset t) (elemBytes env t es))
        (.ok (.seq m) (elemBytes env t es).length) ∧
      m.Pairwise (· ≠ ·) ∧ ∀ q, q ∈ m ↔ q ∈ es := by
  rw [elemBytes_eq] at hlen ⊢
  have hA : At (serUsize es.length ++ serBinAll env t es) 0 (serUsize es.length ++ serBinAll env t es) := ⟨[], [], by simp, rfl⟩
  obtain ⟨h1, h2⟩ := At.append hA
  have hl : (serUsize es.length).length = 8 := by simp [serUsize]
  rw [hl] at h2
  refine ⟨es.foldl (collInsert env .hset) [], ?_, hset_fold_pairwise hk es [] List.Pairwise.nil, ?_⟩
  · apply Returns.succ
    simp only [deserializeBin, deBin]
    refine Returns.bind (Returns.const fun n => readUsize_at h1 (by unfold u64Max at hn; omega) hlen) ?_
    refine Returns.bind (s1 := 0 + 8) (a := ()) (Returns.const fun n => by simp [hashCap, hcap]) ?_
    obtain ⟨n0, h0⟩ := items_at (chk := chk) es (fun w _ t hT hE => readsBack hk hs hlen w t hT hE)
      (AllTy_iff.2 fun v hv => (hg v hv).1) (HoldsAll_iff.2 fun v hv => (hg v hv).2) _ h2
    refine Returns.bind ⟨n0, fun n hn => insertLoop_ok (h0 n hn) []⟩ ?_
    refine Returns.const fun n => ?_
    simp [hl]
  · intro q
    rw [hset_fold_mem hk]; simp

/-! ## C11 Duration and SystemTime -/

/-- **C11**: every `Duration` round-trips. -/
theorem C11_bin_duration (s n : Nat) (hs : s < 2 ^ 64) (hn : n < 1000000000) :
    Returns (fun f => deserializeBin env chk f .dur (serializeBin env .dur (.dur s n))) (.ok (.dur s n) 12) := by
  refine deBin_returns (n := 1) ?_ (by simp)
  have hA : At (serializeBin env .dur (.dur s n)) 0 (serBinDur s n) :=
    ⟨[], [], by simp [serializeBin, serBin], rfl⟩
  simp only [deBin]
  rw [M.bind_ok (deBinDur_at hA (by unfold u64Max; omega) hn
    (by simp [serializeBin, serBin, serBinDur, isizeMax]))]
  rfl

/-- **C11**: a nanosecond count above one billion is rejected with a `Range` error. -/
theorem C11_bin_duration_range (pre post : List Byte) (s n : Nat) (hs : s < 2 ^ 64)
    (hn : 1000000000 < n) (hn' : n < 2 ^ 32)
    (hlen : (pre ++ durBytes s n ++ post).length ≤ isizeMax) :
    Returns (fun f => deBin env chk (pre ++ durBytes s n ++ post) f .dur pre.length)
      (.err ⟨pre.length + 12, .range⟩ (pre.length + 12)) := by
  rw [durBytes_eq] at hlen ⊢
  refine deBin_returns (n := 1) ?_ (by simp)
  have hA : At (pre ++ (leBytes 8 s ++ leBytes 4 n) ++ post) pre.length (leBytes 8 s ++ leBytes 4 n) :=
    ⟨pre, post, rfl, rfl⟩
  obtain ⟨h1, h2⟩ := hA.append
  simp only [leBytes_length] at h2
  simp only [deBin]
  apply M.bind_err
  simp only [deBinDur]
  rw [M.bind_ok (readPrim_le h1 hlen), M.bind_ok (readPrim_le h2 hlen)]
  rw [leVal_leBytes _ _ (by rw [pow256]; exact hn')]
  rw [if_pos hn]
  simp [M.bind_def]

/-- **C11**: a `SystemTime` at or after the epoch round-trips, one before it is written as a
marker and decodes as the epoch. -/
theorem C11_bin_systemtime (s : Int) (n : Nat) (hT : HasTy env .time (.time s n)) :
    Returns (fun f => deserializeBin env chk f .time (serializeBin env .time (.time s n)))
      (if 0 ≤ s then .ok (.time s n) 13 else .ok (.time 0 0) 1) := by
  refine deBin_returns (n := 1) ?_ (by split <;> simp)
  simp only [HasTy] at hT
  by_cases h0 : 0 ≤ s
  · rw [if_pos h0]
    have e : serializeBin env .time (.time s n) = [1] ++ serBinDur s.toNat n := by
      simp [serializeBin, serBin, h0]
    rw [e]
    have hl : ([1] ++ serBinDur s.toNat n : List Byte).length ≤ isizeMax := by
      simp [serBinDur, isizeMax]
    have hA : At ([1] ++ serBinDur s.toNat n) 1 (serBinDur s.toNat n) := ⟨[1], [], by simp, rfl⟩
    simp only [deBin]
    rw [M.bind_ok (s' := 0 + 1) (readPrim_eq (len := 1) (o := 0) (by simp) hl)]
    simp only [List.singleton_append, List.drop_zero, List.take_succ_cons, List.take_zero]
    rw [if_pos (by rfl)]
    have := deBinDur_at (chk := chk) hA (by unfold u64Max; omega) hT.2.2 hl
    simp only [List.singleton_append] at this
    rw [Nat.zero_add, M.bind_ok this]
    simp only [epochPlus]
    rw [if_pos (by omega)]
    rw [Int.toNat_of_nonneg h0]
  · rw [if_neg h0]
    simp only [serializeBin, serBin, if_neg h0]
    cases chk <;> rfl

example : HasTy exEnv .time (.time (-1) 999999999) := by simp [HasTy]

end NS
