import Verif.Props.Bin
import Verif.Props.BinLayout
import Verif.Props.BinValues
import Verif.Props.BinRead
import Verif.Props.BinEvolve
import Verif.Props.ArrayMem
import Verif.Props.Bin32
/-!
# The theorems about the binary format, applied to concrete programs

One application per theorem that is not already applied beside its statement: every hypothesis is
discharged for a concrete, non-trivial type, value or input.
-/
set_option linter.unusedVariables false
set_option linter.unusedSimpArgs false
namespace NS

theorem exNode_typed : HasTy exEnv (.named 0) exNodeVal' := by
  simp [exNodeVal', HasTy, FieldsTy, exNode, IntKind.inRange, IntKind.lo, IntKind.hi, IntKind.signed, IntKind.bytes]

theorem exNode_exact : BinExact exEnv (.named 0) exNodeVal' := by
  simp [exNodeVal', BinExact, Holds, HoldsFields, exNode]

theorem exNode_eq : EqUpToSkip exEnv (.named 0) exNodeVal exNodeVal' := by
  simp [exNodeVal, exNodeVal', EqUpToSkip, EqUpToSkipFields, exNode]

theorem exNode_bytes : serializeBin exEnv (.named 0) exNodeVal' = [1, 2, 1, 7, 0, 0] := by
  simp [serializeBin, exNodeVal', serBin, serBinFields, exNode, IntKind.bytes, leBytes, toTwos]

theorem exNode_bytes' : serializeBin exEnv (.named 0) exNodeVal = [1, 2, 1, 7, 0, 0] := by
  simp [serializeBin, exNodeVal, serBin, serBinFields, exNode, IntKind.bytes, leBytes, toTwos]

/-- C01: the skipped `note`s come back empty. -/
example : Returns (fun n => deserializeBin exEnv true n (.named 0) [1, 2, 1, 7, 0, 0]) (.ok exNodeVal' 6) := by
  have := C01_bin_round_trip (chk := true) exEnv_lawful exEnv_small (.named 0) exNodeVal exNodeVal' exNode_eq exNode_typed exNode_exact
    (by rw [exNode_bytes']; decide)
  rwa [exNode_bytes'] at this

/-- C01, exact. -/
example : Returns (fun n => deserializeBin exEnv true n (.named 0) [1, 2, 1, 7, 0, 0]) (.ok exNodeVal' 6) := by
  have := C01_bin_round_trip_exact (chk := true) exEnv_lawful exEnv_small (.named 0) exNodeVal' exNode_typed exNode_exact
    (by rw [exNode_bytes]; decide)
  rwa [exNode_bytes] at this

/-- C02: between other bytes. -/
example : Returns (fun n => deBin exEnv false [255, 254, 1, 2, 1, 7, 0, 0, 253] n (.named 0) 2) (.ok exNodeVal' 8) := by
  have := C02_bin_embedded (chk := false) exEnv_lawful exEnv_small (.named 0) exNodeVal' exNode_typed exNode_exact [255, 254] [253]
    (by rw [exNode_bytes]; decide)
  rwa [exNode_bytes] at this

/-- C03: cut after three bytes. -/
example : Fails (fun n => deserializeBin exEnv true n (.named 0) [1, 2, 1]) :=
  C03_bin_truncation exEnv_lawful exEnv_small (.named 0) exNodeVal' exNode_typed exNode_exact (by rw [exNode_bytes]; decide) _
    (by rw [exNode_bytes]; decide) (by rw [exNode_bytes]; decide)

/-- C04: the two bytes of the `u16` decide, whatever stands around them. -/
example : Returns (fun n => deBin exEnv true [77, 2, 0] n (.int .u16) 1) (.ok (.int 2) 3) := by
  refine (C04_bin_local (.int .u16) [9, 2, 0, 7] 1 (.int 2) 3 (by decide) (by decide) (deBin_returns (n := 1) rfl (by simp))).2.2
    _ (by decide) (by decide) ?_
  intro i h1 h2
  match i, h1, h2 with
  | 1, _, _ | 2, _, _ => rfl

/-- C05: the four panics, in a debug and in a release build. -/
example : Returns (fun n => deserializeBin exEnv true n .str (List.replicate 8 255)) .panic ∧
    Returns (fun n => deserializeBin exEnv false n (.vec (.int .u8)) (List.replicate 8 255)) .panic ∧
    Returns (fun n => deserializeBin exEnv false n .dur (List.replicate 8 255 ++ [0, 0xCA, 0x9A, 0x3B])) .panic ∧
    Returns (fun n => deserializeBin exEnv true n .time (1 :: List.replicate 8 255 ++ [0, 0, 0, 0])) .panic :=
  ⟨C05_bin_string_panics, C05_bin_vec_panics _ (by decide), C05_bin_duration_panics, C05_bin_systemtime_panics⟩

/-- C05: a panicking input, and the place the theorem finds. -/
example : ∃ u p, Occurs exEnv (.pair (.int .u8) .str) u ∧ PanicsAt exEnv true (3 :: List.replicate 8 255) u p :=
  C05_bin_panics_only _ _ (by decide) 3 rfl

/-- C05, the other direction, in the middle of the input. -/
example : Returns (fun n => deBin exEnv true (3 :: List.replicate 8 255) n .str 1) .panic :=
  C05_bin_panics_at .str _ 1 (by decide) (by decide) (by
    refine ⟨by decide, ?_, ?_⟩ <;> decide +kernel)

/-- C06: equal bytes of `Vec<E>`s. -/
example (w : Val) (hw : HasTy exEnv (.named 0) w) (hE : BinExact exEnv (.named 0) w)
    (h : serializeBin exEnv (.named 0) w = [1, 2, 1, 7, 0, 0]) : w = exNodeVal' :=
  C06_bin_injective exEnv_lawful exEnv_small _ _ _ hw hE exNode_typed exNode_exact (by rw [exNode_bytes]; decide) (by rw [h, exNode_bytes])

example (w : Val) (hw : HasTy exEnv (.named 0) w) (hE : BinExact exEnv (.named 0) w)
    (h : serializeBin exEnv (.named 0) w <+: [1, 2, 1, 7, 0, 0]) : w = exNodeVal' :=
  C06_bin_prefix_free exEnv_lawful exEnv_small _ _ _ hw hE exNode_typed exNode_exact (by rw [exNode_bytes]; decide) (by rw [exNode_bytes]; exact h)

/-- C07: variant 3 of an enum with three variants. -/
example : Returns (fun n => deBin exEnv true [9, 3, 0, 1] n (.named 1) 1) (.err ⟨0, .unknownDiscriminant 3⟩ 3) :=
  C07_bin_unknown_discriminant (env := exEnv) 1 _ rfl [9] [1] 3 0 (by decide) (by decide)

/-- C07: a successful read is of the variant that the two bytes name. -/
example : ∃ vs, Val.variant 0 [] = .variant 0 vs ∧ 0 < 3 :=
  C07_bin_discriminant_selects (env := exEnv) (chk := true) 1 _ rfl [] [] 0 0 (.variant 0 []) 2 3 (by decide) rfl

/-- C08: layouts. -/
example : serializeBin exEnv (.int .i16) (.int (-2)) = [254, 255] := by
  rw [C08_bin_int_bytes .i16 (-2) (by decide)]; decide

example : serializeBin exEnv .str (.str [Char.ofNat 233]) = [2, 0, 0, 0, 0, 0, 0, 0, 0xC3, 0xA9] := by
  rw [C08_bin_string_layout]; decide +kernel

example : serializeBin exEnv (.bset .bool) (.seq [.bool false, .bool true]) = [2, 0, 0, 0, 0, 0, 0, 0, 0, 1] := by
  rw [C08_bin_seq_layout .bool _ (by simp)]
  simp [(C08_bin_leaf_layout (env := exEnv) _ 0 0 .unit .unit 0 0).2.1]
  decide

example : serializeBin exEnv (.hmap .bool .bool) (.seq [.entry (.bool true) (.bool false)]) = [1, 0, 0, 0, 0, 0, 0, 0, 1, 0] := by
  rw [show [Val.entry (.bool true) (.bool false)] = [(Val.bool true, Val.bool false)].map fun e => .entry e.1 e.2 from rfl,
    C08_bin_map_layout .bool .bool _ (by simp)]
  simp [(C08_bin_leaf_layout (env := exEnv) _ 0 0 .unit .unit 0 0).2.1]
  decide

example : serializeBin exEnv (.array .bool 2) (.seq [.bool true, .bool false]) = [1, 0] := by
  rw [C08_bin_array_layout]
  simp [(C08_bin_leaf_layout (env := exEnv) _ 0 0 .unit .unit 0 0).2.1]

example : serializeBin exEnv (.triple .bool .unit .bool) (.seq [.bool true, .unit, .bool false]) = [1, 0] := by
  rw [(C08_bin_tuple_layout _ _ _ .unit _ _ _ .unit).2.1]
  simp [(C08_bin_leaf_layout (env := exEnv) true 0 0 .unit .unit 0 0).1, (C08_bin_leaf_layout (env := exEnv) _ 0 0 .unit .unit 0 0).2.1]

example : serializeBin exEnv (.named 0) (.struct [.int 513, .str (chars "x"), .none]) = [1, 2, 0] := by
  rw [C08_bin_struct_layout (env := exEnv) 0 _ _ _ rfl]
  simp [(C08_bin_leaf_layout (env := exEnv) true 0 0 _ .unit 0 0).2.2.2.2.1]
  rw [C08_bin_int_bytes .u16 513 (by decide)]; decide

example : serializeBin (lawEnv [.tuple [.bool, .option .bool] false] []) (.named 0) (.struct [.bool true, .some (.bool false)]) = [1, 1, 0] := by
  rw [C08_bin_tuple_struct_layout 0 _ _ rfl]
  simp [(C08_bin_leaf_layout (env := lawEnv _ _) true 0 0 .bool (.bool false) 0 0).2.2.2.2.2.1, (C08_bin_leaf_layout (env := lawEnv _ _) _ 0 0 .unit .unit 0 0).2.1]

/-- C09: a `bool` written as 2 and an option tag of 7 are not reproduced, but read back the same. -/
example (h : SaneEnv exEnv) : Returns (fun n => deserializeBin exEnv true n (.triple .bool (.option (.int .u8)) (.int .u8))
    (serializeBin exEnv (.triple .bool (.option (.int .u8)) (.int .u8)) (.seq [.bool true, .none, .int 5]))) (.ok (.seq [.bool true, .none, .int 5]) 3) :=
  C09_bin_reencode exEnv_lawful exEnv_small h _ [2, 7, 5] (by decide) _ 3 (deBin_returns (n := 2) rfl (by simp)) (by decide)

example : Returns (fun n => deBin exEnv true [9, 200] n .bool 1) (.ok (.bool true) 2) :=
  C09_bin_bool_lenient [9] [] 200 (by decide)

example : Returns (fun n => deBin exEnv true [9, 2, 5] n (.option .str) 1) (.ok .none 2) :=
  C09_bin_option_lenient .str [9] [5] 2 (by decide) (by decide)

/-- Three entries, two of them with the same key. -/
def exEntries : List Val := [.entry (.int 1) (.bool true), .entry (.int 0) (.bool true), .entry (.int 1) (.bool false)]

theorem exEntries_good : GoodEntries exEnv (.int .u8) .bool exEntries := by
  intro e he
  simp [exEntries] at he
  rcases he with rfl | rfl | rfl <;>
    exact ⟨_, _, rfl, by simp [HasTy, BinExact, Holds, IntKind.inRange, IntKind.lo, IntKind.hi, IntKind.signed, IntKind.bytes]⟩

/-- C10: the later entry of key 1 wins. -/
example : ∃ m : List Val, Returns (fun n => deserializeBin exEnv true n (.bmap (.int .u8) .bool) (entryBytes exEnv (.int .u8) .bool exEntries))
      (.ok (.seq m) 14) ∧ mapGet (.int 1) m = some (.bool false) := by
  obtain ⟨m, h, _, _, hm⟩ := C10_bin_btreemap (chk := true) exEnv_lawful exEnv_small _ _ exEntries exEntries_good (by decide) (by decide)
  exact ⟨m, h, by rw [hm]; simp [lastVal, mapGet, exEntries, Val.key]⟩

example : ∃ m : List Val, Returns (fun n => deserializeBin exEnv true n (.hmap (.int .u8) .bool) (entryBytes exEnv (.int .u8) .bool exEntries))
      (.ok (.seq m) 14) ∧ mapGet (.int 1) m = some (.bool false) := by
  obtain ⟨m, h, _, _, hm⟩ := C10_bin_hashmap (chk := true) exEnv_lawful exEnv_small _ _ exEntries exEntries_good (by decide) rfl (by decide)
  exact ⟨m, h, by rw [hm]; simp [lastVal, mapGet, exEntries, Val.key]⟩

/-- C10: the order of the entries does not matter. -/
example : ∃ m, Returns (fun n => deserializeBin exEnv true n (.bmap (.int .u8) .bool)
        (entryBytes exEnv (.int .u8) .bool [.entry (.int 1) (.bool true), .entry (.int 0) (.bool true)])) (.ok (.seq m) 12) ∧
      Returns (fun n => deserializeBin exEnv true n (.bmap (.int .u8) .bool)
        (entryBytes exEnv (.int .u8) .bool [.entry (.int 0) (.bool true), .entry (.int 1) (.bool true)])) (.ok (.seq m) 12) :=
  C10_bin_btreemap_order exEnv_lawful exEnv_small _ _ _ _ (.swap _ _ []) (by simp [Val.key])
    (fun e he => exEntries_good e (by simp [exEntries] at he ⊢; rcases he with rfl | rfl <;> simp)) (by decide) (by decide) (by decide)

theorem exElems_good : ∀ e ∈ [Val.int 5, .int 3, .int 5], HasTy exEnv (.int .u8) e ∧ BinExact exEnv (.int .u8) e := by
  simp [HasTy, BinExact, Holds, IntKind.inRange, IntKind.lo, IntKind.hi, IntKind.signed, IntKind.bytes]

example : ∃ m : List Val, Returns (fun n => deserializeBin exEnv true n (.bset (.int .u8)) (elemBytes exEnv (.int .u8) [.int 5, .int 3, .int 5]))
      (.ok (.seq m) 11) ∧ m.Pairwise (fun a b => exEnv.cmp a b = .lt) ∧ ∀ q, q ∈ m ↔ q ∈ [Val.int 5, .int 3, .int 5] :=
  C10_bin_btreeset exEnv_lawful exEnv_small _ _ exElems_good (by decide) (by decide)

example : ∃ m : List Val, Returns (fun n => deserializeBin exEnv true n (.hset (.int .u8)) (elemBytes exEnv (.int .u8) [.int 5, .int 3, .int 5]))
      (.ok (.seq m) 11) ∧ m.Pairwise (· ≠ ·) ∧ ∀ q, q ∈ m ↔ q ∈ [Val.int 5, .int 3, .int 5] :=
  C10_bin_hashset exEnv_lawful exEnv_small _ _ exElems_good (by decide) rfl (by decide)

/-- C11. -/
example : Returns (fun f => deserializeBin exEnv true f .dur (serializeBin exEnv .dur (.dur 5 999999999))) (.ok (.dur 5 999999999) 12) :=
  C11_bin_duration 5 999999999 (by decide) (by decide)

example : Returns (fun f => deBin exEnv true ([7] ++ durBytes 5 1000000001 ++ [8]) f .dur 1) (.err ⟨13, .range⟩ 13) :=
  C11_bin_duration_range [7] [8] 5 1000000001 (by decide) (by decide) (by decide) (by decide)

example : Returns (fun f => deserializeBin exEnv true f .time (serializeBin exEnv .time (.time (-1) 5))) (.ok (.time 0 0) 1) :=
  C11_bin_systemtime (-1) 5 (by simp [HasTy])

/-- C12: one byte short, and enough bytes. -/
example : deBin exEnv true [1, 2, 3, 4] 2 (.int .u32) 1 = .err ⟨1, .length 4 4⟩ 1 :=
  (C12_bin_length_error (env := exEnv) (chk := true) (.int .u32) 4 rfl [1, 2, 3, 4] 1 1 (by decide) (by decide)).1 (by decide)

example : ∃ v, deBin exEnv true [1, 2, 3, 4, 5] 2 (.int .u32) 1 = .ok v 5 :=
  (C12_bin_length_error (env := exEnv) (chk := true) (.int .u32) 4 rfl [1, 2, 3, 4, 5] 1 1 (by decide) (by decide)).2 (by decide)

/-- C13. -/
example : deBin exEnv true [2, 0, 0, 0, 0, 0, 0, 0, 0xC3, 0xA9] 1 .str 0 = .ok (.str [Char.ofNat 233]) 10 :=
  (C13_bin_string_iff (env := exEnv) (chk := true) _ 0 (by decide) (by decide) [Char.ofNat 233] 10 0).2
    ⟨by decide, by decide +kernel, by decide, by decide +kernel⟩

/-- C14. -/
example : (serializeBin exEnv (.pair (.int .u8) .dur) (.seq [.int 3, .dur 7 8])).length = 13 :=
  C14_bin_fixed_size _ _ (.pair (.cons (m := 1) (.int .u8) (.cons (m := 12) .dur .nil))) _
    (by simp [HasTy, TysTy, IntKind.inRange, IntKind.lo, IntKind.hi, IntKind.signed, IntKind.bytes, u64Max])

example (d : List Byte) (hd : d.length ≤ isizeMax) (o : Nat) (v : Val) (o' n : Nat)
    (h : deBin exEnv true d n (.pair (.int .u8) .dur) o = .ok v o') : o' = o + 13 :=
  C14_bin_fixed_size_consumed _ _ (.pair (.cons (m := 1) (.int .u8) (.cons (m := 12) .dur .nil))) d hd o v o' n h

/-- C68: reading in the middle of an input. -/
example (v : Val) (o' : Nat) : Returns (fun n => deBin exEnv true [9, 1, 200, 9] n (.option .bool) 1) (.ok v o') ↔
      ∃ bs, At [9, 1, 200, 9] 1 bs ∧ o' = 1 + bs.length ∧ BinSays exEnv (.option .bool) bs v :=
  C68_bin_reads_exactly exEnv_lawful _ _ (by decide) 1 (by decide) v o'

/-- C82: the array reader of a two-element array, on an input that ends too early. -/
example : (arrayMem (pure ()) (deBin exEnv true [1, 2, 3] 1 (.int .u16)) (pure ()) (pure ()) 2 0 ⟨0, []⟩).seen =
    some (deBin exEnv true [1, 2, 3] 2 (.array (.int .u16) 2) 0) :=
  C82_bin_array_sound exEnv true [1, 2, 3] 1 (.int .u16) 2 0 ⟨0, []⟩

/-- C82: there the first element, number 0 of the heap, is dropped and nothing else is. -/
example : ∃ e s' h', arrayMem (pure ()) (deBin exEnv true [1, 2, 3] 1 (.int .u16)) (pure ()) (pure ()) 2 0 ⟨0, []⟩ = .err e s' h' ∧
    h'.dropped.Perm ([] ++ created ⟨0, []⟩ h') ∧ (created ⟨0, []⟩ h').length ≤ 2 :=
  ⟨⟨2, .length 2 3⟩, 2, ⟨1, [0]⟩, rfl, C82_array_error_drops (pure ()) (deBin exEnv true [1, 2, 3] 1 (.int .u16)) (pure ()) (pure ()) 2 0 2 ⟨0, []⟩ ⟨1, [0]⟩ ⟨2, .length 2 3⟩ rfl⟩

example : ∃ os s' h', arrayMem (pure ()) (deBin exEnv true [1, 2, 3, 4] 1 (.int .u16)) (pure ()) (pure ()) 2 0 ⟨5, [1]⟩ = .ok os s' h' ∧
    os.length = 2 ∧ os.map Owned.id = created ⟨5, [1]⟩ h' ∧ h'.dropped = [1] :=
  ⟨[⟨5, .int 513⟩, ⟨6, .int 1027⟩], 4, ⟨7, [1]⟩, rfl, C82_array_returned (pure ()) (deBin exEnv true [1, 2, 3, 4] 1 (.int .u16)) (pure ()) (pure ()) 2 0 4 ⟨5, [1]⟩ ⟨7, [1]⟩ _ rfl⟩

/-- C82: an element reader that panics at the second element. -/
example : ∃ h', arrayMem (pure ()) (deBin exEnv true (List.replicate 8 0 ++ List.replicate 8 255) 1 .str) (pure ()) (pure ()) 2 0 ⟨0, []⟩ = .panic h' ∧
    ∃ l, h'.dropped = [] ++ l ∧ l.Nodup ∧ ∀ i ∈ l, i ∈ created ⟨0, []⟩ h' :=
  ⟨_, rfl, C82_array_panic_no_double_drop (pure ()) (deBin exEnv true (List.replicate 8 0 ++ List.replicate 8 255) 1 .str) (pure ()) (pure ()) 2 0 _ _ rfl⟩

/-- C96: `Node` written on a 64-bit target and read on a 32-bit one. -/
example : Returns (fun n => W32.deserializeBin { exEnv with memSize := fun _ => 4 } true n (.named 0) [1, 2, 1, 7, 0, 0]) (.ok exNodeVal' 6) := by
  have hr : W32.Retarget exEnv { exEnv with memSize := fun _ => 4 } := ⟨rfl, rfl, rfl, rfl⟩
  have := C96_bin_to_32 (chk := true) hr ⟨exEnv_lawful.1, exEnv_lawful.2, exEnv_lawful.3, exEnv_lawful.4⟩ exEnv_small (.named 0) exNodeVal exNodeVal'
    (by simp [exNodeVal, exNodeVal', EqUpToSkip, EqUpToSkipFields, exNode])
    (by simp [exNodeVal', HasTy, FieldsTy, exNode, IntKind.inRange, IntKind.lo, IntKind.hi, IntKind.signed, IntKind.bytes])
    (by simp [exNodeVal', W32.BinExact, W32.Fits, Holds, HoldsFields, exNode]) (by rw [exNode_bytes']; decide)
  rwa [exNode_bytes'] at this

/-- C96: and the other way round. -/
example : Returns (fun n => deserializeBin exEnv true n (.named 0) (serializeBin { exEnv with memSize := fun _ => 4 } (.named 0) exNodeVal)) (.ok exNodeVal' 6) := by
  have hr : W32.Retarget { exEnv with memSize := fun _ => 4 } exEnv := ⟨rfl, rfl, rfl, rfl⟩
  have e : serializeBin { exEnv with memSize := fun _ => 4 } (.named 0) exNodeVal = [1, 2, 1, 7, 0, 0] := by
    simp [serializeBin, exNodeVal, serBin, serBinFields, exNode, IntKind.bytes, leBytes, toTwos]
  have := C96_bin_to_64 (chk := true) hr exEnv_lawful exEnv_small (.named 0) exNodeVal exNodeVal' exNode_eq exNode_typed exNode_exact
    (by rw [e]; decide)
  rw [e] at this
  rw [e]; exact this

example : Returns (fun n => W32.deserializeBin exEnv true n (.int .usize) (serializeBin exEnv (.int .usize) (.int (2 ^ 32 + 5 : Nat)))) (.ok (.int 5) 8) :=
  C96_bin32_usize_truncated (2 ^ 32 + 5) (by decide)

end NS
