import Verif.Lemmas.LittleEndian
import Verif.Lemmas.BinMore
import Verif.Lemmas.Mono
import Verif.Spec.BinLayout
import Verif.Props.Examples
import Mathlib.Tactic.Ring
/-! # Properties C07, C08, C12–C14: layout of the binary format -/
set_option linter.unusedVariables false
set_option linter.unnecessarySeqFocus false
namespace NS
variable {env : Env} {chk : Bool}

/-! ## C07 enum discriminants -/

/-- The encoding of a variant's fields. -/
def shapeBytes (env : Env) : Shape → List Val → List Byte
  | .unit, _ => []
  | .tuple ts, vs => (List.zipWith (serializeBin env) ts vs).flatten
  | .named fs, vs => (List.zipWith (fun f v => serializeBin env f.ty v) fs vs).flatten

theorem serBinTys_zip (ts : List Ty) (vs : List Val) :
    serBinTys env ts vs = (List.zipWith (serBin env) ts vs).flatten := by
  induction ts generalizing vs with
  | nil => simp [serBinTys]
  | cons t ts ih => cases vs <;> simp [serBinTys, ih]

theorem serBinFields_zip (fs : List Field) (vs : List Val) :
    serBinFields env false fs vs = (List.zipWith (fun f v => serBin env f.ty v) fs vs).flatten := by
  induction fs generalizing vs with
  | nil => simp [serBinFields]
  | cons t ts ih => cases vs <;> simp [serBinFields, ih]

/-- **C07**, writing: variant number `j` of an enum is the little-endian 16-bit index followed
by the fields in declaration order. -/
theorem C07_bin_enum_layout (i : Nat) (vars : List Variant) (hd : env.defs[i]? = some (.enum vars))
    (j : Nat) (var : Variant) (hj : vars[j]? = some var) (vs : List Val) :
    serializeBin env (.named i) (.variant j vs) =
      [byteOf j 0, byteOf j 1] ++ shapeBytes env var.shape vs := by
  have h2 : leBytes 2 j = [byteOf j 0, byteOf j 1] := by
    simp only [leBytes, byteOf, Int.shiftRight_eq_div_pow]
    congr 1
    congr 1
    simp; congr 1
  obtain ⟨_, _, sh⟩ := var
  simp only [serializeBin, serBin, hd, hj, h2]
  cases sh <;> simp [shapeBytes, serBinTys_zip, serBinFields_zip] <;> rfl

/-- **C07**, reading: a tag that is not the index of a declared variant is the error
`UnknownDiscriminant(tag)`. (The code reports offset 0 in it, wherever the tag is.) -/
theorem C07_bin_unknown_discriminant (i : Nat) (vars : List Variant)
    (hd : env.defs[i]? = some (.enum vars)) (pre post : List Byte) (a b : Byte)
    (hlen : (pre ++ a :: b :: post).length ≤ isizeMax)
    (hbad : vars.length ≤ a.toNat + 256 * b.toNat) :
    Returns (fun n => deBin env chk (pre ++ a :: b :: post) n (.named i) pre.length)
      (.err ⟨0, .unknownDiscriminant ((a.toNat + 256 * b.toNat : Nat) : Int)⟩ (pre.length + 2)) := by
  refine deBin_returns (n := 1) ?_ (by simp)
  have hr : readPrim chk (pre ++ a :: b :: post) 2 pre.length = .ok [a, b] (pre.length + 2) := by
    rw [readPrim_eq (by simp) hlen]; simp
  simp only [deBin, hd]
  rw [M.bind_ok hr]
  have hv : leVal [a, b] = a.toNat + 256 * b.toNat := by simp [leVal]
  rw [hv]
  have : vars[a.toNat + 256 * b.toNat]? = none := List.getElem?_eq_none hbad
  simp only [this, M.throw_apply]

/-- **C07**, reading: a successful read yields the variant whose index is the tag. -/
theorem C07_bin_discriminant_selects (i : Nat) (vars : List Variant)
    (hd : env.defs[i]? = some (.enum vars)) (pre post : List Byte) (a b : Byte) (v : Val) (o' n : Nat)
    (hlen : (pre ++ a :: b :: post).length ≤ isizeMax)
    (h : deBin env chk (pre ++ a :: b :: post) n (.named i) pre.length = .ok v o') :
    ∃ vs, v = .variant (a.toNat + 256 * b.toNat) vs ∧ a.toNat + 256 * b.toNat < vars.length := by
  cases n with
  | zero => simp [deBin] at h
  | succ n =>
    have hr : readPrim chk (pre ++ a :: b :: post) 2 pre.length = .ok [a, b] (pre.length + 2) := by
      rw [readPrim_eq (by simp) hlen]; simp
    have hv : leVal [a, b] = a.toNat + 256 * b.toNat := by simp [leVal]
    simp only [deBin, hd] at h
    rw [M.bind_ok hr, hv] at h
    cases hj : vars[a.toNat + 256 * b.toNat]? with
    | none => simp [hj] at h
    | some var =>
      simp only [hj] at h
      obtain ⟨vs, s1, h1, h2⟩ := M.bind_eq_ok.1 h
      simp at h2
      exact ⟨vs, h2.1.symm, (List.getElem?_eq_some_iff.1 hj).1⟩

example : serializeBin exEnv (.named 1) (.variant 1 [.int (-3), .str ['a']]) =
    [1, 0, 253, 1, 0, 0, 0, 0, 0, 0, 0, 97] := by
  rw [C07_bin_enum_layout 1 _ rfl 1 _ rfl]
  simp [shapeBytes, serializeBin, serBin, IntKind.bytes, serUsize, leBytes, toTwos, utf8, utf8Char, byteOf]
  decide

/-! ## C08 layout -/

theorem leBytes_getElem? (n x j : Nat) (hj : j < n) :
    (leBytes n x)[j]? = some (UInt8.ofNat (x / 256 ^ j % 256)) := by
  induction n generalizing x j with
  | zero => omega
  | succ n ih =>
    cases j with
    | zero => simp [leBytes]
    | succ j =>
      simp only [leBytes, List.getElem?_cons_succ]
      rw [ih _ _ (by omega), Nat.div_div_eq_div_mul, Nat.pow_succ, Nat.mul_comm 256]

theorem toTwos_byte (m : Nat) (i : Int) (j : Nat) (hj : j < m) :
    UInt8.ofNat (toTwos m i / 256 ^ j % 256) = byteOf i j := by
  unfold byteOf toTwos
  congr 1
  have e1 : (256 : Nat) ^ j = 2 ^ (8 * j) := by rw [show (256 : Nat) = 2 ^ 8 by rfl, ← Nat.pow_mul]
  have e2 : (2 : Nat) ^ (8 * m) = 2 ^ (8 * j) * (256 * 2 ^ (8 * (m - j - 1))) := by
    rw [show (256 : Nat) = 2 ^ 8 by rfl, ← Nat.pow_add, ← Nat.pow_add]; congr 1; omega
  rw [e1, Int.shiftRight_eq_div_pow]
  generalize 2 ^ (8 * (m - j - 1)) = c at e2
  have hp : (0 : Nat) < 2 ^ (8 * j) := Nat.two_pow_pos _
  generalize (2 : Nat) ^ (8 * j) = a at *
  rw [e2]
  have hc : 0 < c := by
    rcases Nat.eq_zero_or_pos c with h | h
    · subst h; simp at e2
    · exact h
  have hpos : (0 : Int) < (a * (256 * c) : Nat) := by
    have : 0 < a * (256 * c) := Nat.mul_pos hp (by omega)
    omega
  have hnn : 0 ≤ i % ((a * (256 * c) : Nat) : Int) := Int.emod_nonneg _ (by omega)
  apply Int.ofNat.inj
  show ((((i % ((a * (256 * c) : Nat) : Int)).toNat / a % 256 : Nat)) : Int) = (((i / (a : Int) % 256).toNat : Nat) : Int)
  rw [Int.toNat_of_nonneg (Int.emod_nonneg _ (by decide))]
  rw [Int.natCast_emod, Int.natCast_ediv, Int.toNat_of_nonneg hnn]
  have h1 : i = (a : Int) * (256 * c) * (i / ((a : Int) * (256 * c))) + i % ((a : Int) * (256 * c)) :=
    (Int.mul_ediv_add_emod _ _).symm
  push_cast
  generalize hq : i / ((a : Int) * (256 * c)) = q at h1
  generalize hr : i % ((a : Int) * (256 * c)) = r at h1
  have h2 : i / (a : Int) = r / a + 256 * (c * q) := by
    rw [h1, show (a : Int) * (256 * c) * q + r = r + a * (256 * (c * q)) by ring]
    rw [Int.add_mul_ediv_left _ _ (by omega)]
  rw [h2, Int.add_mul_emod_self_left]

/-- **C08**: an integer occupies exactly the width of its type, byte `j` being
`(i >> 8j) & 255`. -/
theorem C08_bin_int_bytes (k : IntKind) (i : Int) (hi : k.inRange i) :
    serializeBin env (.int k) (.int i) = (List.range k.bytes).map (byteOf i) := by
  have key : ∀ m, leBytes m (toTwos m i) = (List.range m).map (byteOf i) := by
    intro m
    apply List.ext_getElem?
    intro j
    by_cases hj : j < m
    · rw [leBytes_getElem? _ _ _ hj, toTwos_byte m i j hj]
      simp [hj]
    · rw [List.getElem?_eq_none (by simp; omega), List.getElem?_eq_none (by simp; omega)]
  cases k
  case usize =>
    have h : i.toNat = toTwos 8 i := by
      simp only [IntKind.inRange, IntKind.lo, IntKind.hi, IntKind.signed, IntKind.bytes] at hi
      unfold toTwos
      rw [Int.emod_eq_of_lt (by simpa using hi.1) (by have := hi.2; simp at this ⊢; omega)]
    simp only [serializeBin, serBin, serUsize, h]
    exact key 8
  all_goals exact key _

theorem serUsize_lenBytes (n : Nat) : serUsize n = lenBytes n := by
  simp only [serUsize, lenBytes]
  apply List.ext_getElem?
  intro j
  by_cases hj : j < 8
  · rw [leBytes_getElem? _ _ _ hj]
    simp only [List.getElem?_map, List.getElem?_range hj, Option.map_some, byteOf]
    congr 2
    rw [Int.shiftRight_eq_div_pow, Nat.pow_mul]
    apply Int.ofNat.inj
    show ((n / 256 ^ j % 256 : Nat) : Int) = (((n : Int) / ((2 ^ 8) ^ j : Nat) % 256).toNat : Nat)
    rw [Int.toNat_of_nonneg (Int.emod_nonneg _ (by decide))]
    push_cast; rfl
  · rw [List.getElem?_eq_none (by simp; omega), List.getElem?_eq_none (by simp; omega)]

theorem utf8Char_std (c : Char) : utf8Char c = String.utf8EncodeChar c := by
  have hv := char_valid c
  unfold utf8Char String.utf8EncodeChar
  show _ = (let v := c.toNat; _)
  simp only
  have hc : c.toNat < 0x110000 := by omega
  have e : c.val.toNat = c.toNat := rfl
  rw [e]
  generalize c.toNat = v at *
  by_cases h1 : v < 0x80
  · simp only [h1, if_true, show v ≤ 127 by omega]
  simp only [h1, if_false, show ¬ v ≤ 127 by omega]
  by_cases h2 : v < 0x800
  · simp only [h2, if_true, show v ≤ 0x7ff by omega]
    rw [show 192 + v / 64 = v / 64 % 32 + 192 by omega, Nat.add_comm 128]
  simp only [h2, if_false, show ¬ v ≤ 0x7ff by omega]
  by_cases h3 : v < 0x10000
  · simp only [h3, if_true, show v ≤ 0xffff by omega]
    rw [show 224 + v / 4096 = v / 4096 % 16 + 224 by omega, Nat.add_comm 128, Nat.add_comm 128]
  simp only [h3, if_false, show ¬ v ≤ 0xffff by omega]
  rw [show 240 + v / 262144 = v / 262144 % 8 + 240 by omega, Nat.add_comm 128, Nat.add_comm 128,
    Nat.add_comm 128]

theorem utf8_std (s : List Char) : utf8 s = stdUtf8 s := by
  unfold utf8 stdUtf8
  congr 1
  funext c; exact utf8Char_std c

/-- **C08**: a string is its UTF-8 length in 8 bytes and its UTF-8 bytes. -/
theorem C08_bin_string_layout (s : List Char) :
    serializeBin env .str (.str s) = lenBytes (stdUtf8 s).length ++ stdUtf8 s := by
  simp only [serializeBin, serBin, serUsize_lenBytes, utf8_std]

/-- **C08**: `Vec`, `LinkedList`, `HashSet` and `BTreeSet` are the number of items in 8 bytes
followed by the items. -/
theorem C08_bin_seq_layout (t u : Ty) (hu : u = .vec t ∨ u = .linked t ∨ u = .hset t ∨ u = .bset t)
    (vs : List Val) : serializeBin env u (.seq vs) =
      lenBytes vs.length ++ vs.flatMap (serializeBin env t) := by
  rcases hu with rfl | rfl | rfl | rfl <;>
    simp only [serializeBin, serBin, serUsize_lenBytes, serBinAll_eq] <;> rfl

/-- **C08**: maps are the number of entries in 8 bytes followed by key, value, key, value, … -/
theorem C08_bin_map_layout (k t u : Ty) (hu : u = .hmap k t ∨ u = .bmap k t)
    (es : List (Val × Val)) : serializeBin env u (.seq (es.map fun e => .entry e.1 e.2)) =
      lenBytes es.length ++ es.flatMap fun e => serializeBin env k e.1 ++ serializeBin env t e.2 := by
  have : serBinEntries env k t (es.map fun e => .entry e.1 e.2) =
      es.flatMap fun e => serBin env k e.1 ++ serBin env t e.2 := by
    induction es with
    | nil => simp [serBinEntries]
    | cons e es ih => simp [serBinEntries, ih]
  rcases hu with rfl | rfl <;>
    simp only [serializeBin, serBin, serUsize_lenBytes, this, List.length_map]

/-- **C08**: arrays are the concatenation of their items. -/
theorem C08_bin_array_layout (t : Ty) (n : Nat) (vs : List Val) :
    serializeBin env (.array t n) (.seq vs) = vs.flatMap (serializeBin env t) := by
  simp only [serializeBin, serBin, serBinAll_eq]; rfl

/-- **C08**: tuples are the concatenation of their components. -/
theorem C08_bin_tuple_layout (a b c e : Ty) (x y z w : Val) :
    serializeBin env (.pair a b) (.seq [x, y]) = serializeBin env a x ++ serializeBin env b y ∧
    serializeBin env (.triple a b c) (.seq [x, y, z]) =
      serializeBin env a x ++ serializeBin env b y ++ serializeBin env c z ∧
    serializeBin env (.quad a b c e) (.seq [x, y, z, w]) =
      serializeBin env a x ++ serializeBin env b y ++ serializeBin env c z ++ serializeBin env e w := by
  simp [serializeBin, serBin, serBinTys]

theorem serBinFields_skip (fs : List Field) (vs : List Val) : serBinFields env true fs vs =
    (((fs.zip vs).filter fun p => !p.1.skip).map fun p => serBin env p.1.ty p.2).flatten := by
  induction fs generalizing vs with
  | nil => simp [serBinFields]
  | cons f fs ih =>
    cases vs with
    | nil => simp [serBinFields]
    | cons v vs =>
      simp only [serBinFields, List.zip_cons_cons, List.filter_cons]
      by_cases hs : f.skip <;> simp [hs, ih]

/-- **C08**: derived structs are the concatenation of their non-skipped fields in declaration
order; tuple structs of all their fields. -/
theorem C08_bin_struct_layout (i : Nat) (fs : List Field) (cd nn : Bool)
    (hd : env.defs[i]? = some (.struct fs cd nn)) (vs : List Val) :
    serializeBin env (.named i) (.struct vs) =
      (((fs.zip vs).filter fun p => !p.1.skip).map fun p => serializeBin env p.1.ty p.2).flatten := by
  simp only [serializeBin, serBin, hd]
  exact serBinFields_skip fs vs

/-- **C08**: a tuple struct is the concatenation of its fields. -/
theorem C08_bin_tuple_struct_layout (i : Nat) (ts : List Ty) (tr : Bool)
    (hd : env.defs[i]? = some (.tuple ts tr)) (vs : List Val) :
    serializeBin env (.named i) (.struct vs) = (List.zipWith (serializeBin env) ts vs).flatten := by
  simp only [serializeBin, serBin, hd, serBinTys_zip]; rfl

/-- **C08**: the remaining leaf types: `bool` is one byte, floats are their IEEE bits
little-endian, `Option` is a tag byte and the payload, `Box` is transparent, `()` is empty,
`Duration` is 8 bytes of seconds and 4 of nanoseconds, `SystemTime` a tag byte and the
duration since the epoch. -/
theorem C08_bin_leaf_layout (b : Bool) (x : BitVec 32) (y : BitVec 64) (t : Ty) (v : Val)
    (s ns : Nat) :
    serializeBin env .unit .unit = [] ∧
    serializeBin env .bool (.bool b) = [if b then 1 else 0] ∧
    serializeBin env .f32 (.f32 x) = (List.range 4).map (fun j => byteOf x.toNat j) ∧
    serializeBin env .f64 (.f64 y) = (List.range 8).map (fun j => byteOf y.toNat j) ∧
    serializeBin env (.option t) .none = [0] ∧
    serializeBin env (.option t) (.some v) = 1 :: serializeBin env t v ∧
    serializeBin env (.box t) (.box v) = serializeBin env t v ∧
    serializeBin env .dur (.dur s ns) =
      (List.range 8).map (fun j => byteOf s j) ++ (List.range 4).map (fun j => byteOf ns j) ∧
    serializeBin env .time (.time s ns) = 1 :: serializeBin env .dur (.dur s ns) := by
  refine ⟨by simp [serializeBin, serBin], by simp [serializeBin, serBin], ?_, ?_,
    by simp [serializeBin, serBin], by simp [serializeBin, serBin], by simp [serializeBin, serBin],
    ?_, by simp [serializeBin, serBin]⟩
  · simp only [serializeBin, serBin, leBytes_byteOf]
  · simp only [serializeBin, serBin, leBytes_byteOf]
  · simp only [serializeBin, serBin, serBinDur, leBytes_byteOf]

/-! ## C12 length errors -/

/-- **C12**: reading a fixed-size primitive of `m` bytes at offset `o` fails exactly when fewer
than `m` bytes remain; the error carries the offset, the needed size and the input length, and
the offset is unchanged.  Otherwise it succeeds and moves the offset by `m`. -/
theorem C12_bin_length_error (t : Ty) (m : Nat) (hm : primSize t = some m) (d : List Byte) (o n : Nat)
    (hd : d.length ≤ isizeMax) (ho : o ≤ d.length) :
    (d.length < o + m → deBin env chk d (n + 1) t o = .err ⟨o, .length m d.length⟩ o) ∧
    (o + m ≤ d.length → ∃ v, deBin env chk d (n + 1) t o = .ok v (o + m)) := by
  have hp : ∀ l, l < 2 ^ 63 → ∀ f : List Byte → Val,
      (d.length < o + l → (readPrim chk d l >>= fun bs => (pure (f bs) : BinM Val)) o =
        .err ⟨o, .length l d.length⟩ o) ∧
      (o + l ≤ d.length → ∃ v, (readPrim chk d l >>= fun bs => (pure (f bs) : BinM Val)) o =
        .ok v (o + l)) := by
    intro l hl f
    refine ⟨fun h => M.bind_err (readPrim_short h ho hl hd), fun h => ⟨f ((d.drop o).take l), ?_⟩⟩
    rw [M.bind_ok (readPrim_eq h hd)]; rfl
  cases t <;> simp only [primSize, Option.some.injEq, reduceCtorEq] at hm
  case bool => subst hm; exact hp 1 (by decide) _
  case f32 => subst hm; exact hp 4 (by decide) _
  case f64 => subst hm; exact hp 8 (by decide) _
  case int k =>
    subst hm
    cases k
    case usize =>
      refine ⟨fun h => M.bind_err (readUsize_short h ho hd),
        fun h => ⟨.int (leVal ((d.drop o).take 8)), ?_⟩⟩
      simp only [deBin, M.bind_ok (readUsize_eq (chk := chk) h hd)]; rfl
    all_goals exact hp _ (by decide) _

example : primSize (.int .i128) = some 16 := rfl

/-! ## C13 strings -/

theorem deBin_str (d : List Byte) (n o : Nat) : deBin env chk d (n + 1) .str o =
    (deBinStr chk d >>= fun s => (pure (.str s) : BinM Val)) o := rfl

/-- **C13**: a `String` is read at offset `o` exactly when 8 bytes of length and that many
further bytes remain and those bytes are the UTF-8 encoding (Lean's own) of a list of Unicode
scalars; it is then that list, and the offset moves past it. -/
theorem C13_bin_string_iff (d : List Byte) (o : Nat) (hd : d.length ≤ isizeMax) (ho : o ≤ d.length)
    (s : List Char) (o' n : Nat) :
    deBin env chk d (n + 1) .str o = .ok (.str s) o' ↔
      o + 8 ≤ d.length ∧ o' = o + 8 + lenAt d o ∧ o' ≤ d.length ∧
      (d.drop (o + 8)).take (lenAt d o) = stdUtf8 s := by
  rw [lenAt_eq]
  rw [deBin_str, deBinStr_eq_body]
  constructor
  · intro h
    obtain ⟨s', o1, h1, h2⟩ := M.bind_eq_ok.1 h
    simp at h2
    obtain ⟨rfl, rfl⟩ := h2
    obtain ⟨len, o2, h3, h4⟩ := M.bind_eq_ok.1 h1
    obtain ⟨rfl, h5, rfl⟩ := readUsize_ok hd h3
    have hlt : leVal ((d.drop o).take 8) < 2 ^ 64 := by
      have := leVal_lt ((d.drop o).take 8)
      rw [pow256, List.length_take, List.length_drop] at this
      have h8 : min 8 (d.length - o) = 8 := by omega
      rw [h8] at this; exact this
    obtain ⟨rfl, h6, h7⟩ := strBody_ok hlt h5 hd h4
    exact ⟨h5, rfl, h6, by rw [← utf8_fromUtf8 _ _ h7, utf8_std]⟩
  · rintro ⟨h1, rfl, h2, h3⟩
    rw [M.bind_ok (s' := o + 8 + leVal ((d.drop o).take 8)) (a := s)]
    · rfl
    · rw [M.bind_ok (readUsize_eq h1 hd), strBody_eq h2 hd, h3, ← utf8_std, fromUtf8_utf8]

/-- **C13**: bytes that fit the input but are not UTF-8 (overlong forms, surrogates, values
above U+10FFFF, stray continuation bytes, …) are an error. -/
theorem C13_bin_string_invalid (d : List Byte) (o : Nat) (hd : d.length ≤ isizeMax)
    (h8 : o + 8 ≤ d.length) (hfit : o + 8 + lenAt d o ≤ d.length)
    (hbad : ∀ s, (d.drop (o + 8)).take (lenAt d o) ≠ stdUtf8 s) (n : Nat) :
    deBin env chk d (n + 1) .str o =
      .err ⟨o + 8, .length (lenAt d o) d.length⟩ (o + 8) := by
  rw [lenAt_eq] at hfit hbad ⊢
  rw [deBin_str, deBinStr_eq_body]
  apply M.bind_err
  rw [M.bind_ok (readUsize_eq h8 hd), strBody_eq hfit hd]
  cases h : fromUtf8 ((d.drop (o + 8)).take (leVal ((d.drop o).take 8))) with
  | none => rfl
  | some s => exact absurd (by rw [← utf8_std]; exact (utf8_fromUtf8 _ _ h).symm) (hbad s)

/-- A surrogate (`ED A0 80`) is not the encoding of any string. -/
example : ∀ s, ([0xED, 0xA0, 0x80] : List Byte) ≠ stdUtf8 s := by
  intro s h
  rw [← utf8_std] at h
  have := fromUtf8_utf8 s
  rw [← h] at this
  have e : fromUtf8 [0xED, 0xA0, 0x80] = none := by rfl
  rw [e] at this
  simp at this

/-! ## C14 fixed-size types -/

mutual
theorem fixed_ser : ∀ {t m}, FixedSize env t m → ∀ v, HasTy env t v → (serBin env t v).length = m
  | _, _, .unit, v, h => by cases v <;> simp [HasTy] at h <;> simp [serBin]
  | _, _, .bool, v, h => by cases v <;> simp [HasTy] at h <;> simp [serBin]
  | _, _, .int k, v, h => by
    cases v <;> simp [HasTy] at h <;> cases k <;> simp [serBin, serUsize, IntKind.bytes]
  | _, _, .f32, v, h => by cases v <;> simp [HasTy] at h <;> simp [serBin]
  | _, _, .f64, v, h => by cases v <;> simp [HasTy] at h <;> simp [serBin]
  | _, _, .dur, v, h => by cases v <;> simp [HasTy] at h <;> simp [serBin, serBinDur]
  | _, _, .array (t := t) (m := m) n hf, v, h => by
    have ih := fixed_ser hf
    cases v <;> simp only [HasTy] at h
    rename_i vs
    obtain ⟨h1, rfl⟩ := h
    rw [AllTy_iff] at h1
    simp only [serBin, serBinAll_eq]
    clear hf
    induction vs with
    | nil => simp
    | cons v vs ihv =>
      simp only [List.flatMap_cons, List.length_append, ih v (h1 v (by simp)),
        ihv (fun w hw => h1 w (by simp [hw])), List.length_cons]
      rw [Nat.succ_mul, Nat.add_comm]
  | _, _, .pair hf, v, h => by
    cases v <;> simp only [HasTy] at h
    simp only [serBin]; exact fixeds_ser hf _ h
  | _, _, .triple hf, v, h => by
    cases v <;> simp only [HasTy] at h
    simp only [serBin]; exact fixeds_ser hf _ h
  | _, _, .quad hf, v, h => by
    cases v <;> simp only [HasTy] at h
    simp only [serBin]; exact fixeds_ser hf _ h
  | _, _, .box hf, v, h => by
    cases v <;> simp only [HasTy] at h
    simp only [serBin]; exact fixed_ser hf _ h
  | _, _, .tupleStruct hd hf, v, h => by
    cases v <;> simp only [HasTy, hd] at h
    simp only [serBin, hd]; exact fixeds_ser hf _ h
  | _, _, .struct (fs := fs) hd hf, v, h => by
    cases v <;> simp only [HasTy, hd] at h
    rename_i vs
    simp only [serBin, hd]
    have e : ∀ (fs : List Field) (vs : List Val), FieldsTy env fs vs →
        ∃ ws, TysTy env ((fs.filter fun f => !f.skip).map (·.ty)) ws ∧
          serBinFields env true fs vs = serBinTys env ((fs.filter fun f => !f.skip).map (·.ty)) ws := by
      intro fs
      induction fs with
      | nil =>
        intro vs h
        cases vs with
        | nil => exact ⟨[], by simp [TysTy], by simp [serBinFields, serBinTys]⟩
        | cons _ _ => simp [FieldsTy] at h
      | cons f fs ihf =>
        intro vs h
        cases vs with
        | nil => simp [FieldsTy] at h
        | cons v vs =>
          simp only [FieldsTy] at h
          obtain ⟨ws, h1, h2⟩ := ihf vs h.2
          by_cases hs : f.skip
          · exact ⟨ws, by simpa [hs] using h1, by simp [serBinFields, hs, h2]⟩
          · exact ⟨v :: ws, by simp [hs, TysTy]; exact ⟨h.1, by simpa using h1⟩,
              by simp [serBinFields, hs, h2, serBinTys]⟩
    obtain ⟨ws, h1, h2⟩ := e fs vs h
    rw [h2]; exact fixeds_ser hf _ h1
  | _, _, .proxied hd hf, v, h => by
    cases v <;> simp only [HasTy, hd] at h
    simp only [serBin, hd]; exact fixed_ser hf _ h.1
theorem fixeds_ser : ∀ {ts m}, FixedSizes env ts m → ∀ vs, TysTy env ts vs →
    (serBinTys env ts vs).length = m
  | _, _, .nil, vs, h => by simp [serBinTys]
  | _, _, .cons hf hs, vs, h => by
    cases vs with
    | nil => simp [TysTy] at h
    | cons v vs =>
      simp only [TysTy] at h
      simp only [serBinTys, List.length_append, fixed_ser hf v h.1, fixeds_ser hs vs h.2]
end

/-- Moves the offset by `m` when it succeeds. -/
def Moves {α : Type} (x : BinM α) (m : Nat) : Prop := ∀ o a o', x o = .ok a o' → o' = o + m

theorem Moves.bind {α β : Type} {x : BinM α} {f : α → BinM β} {m k : Nat} (hx : Moves x m)
    (hf : ∀ a, Moves (f a) k) : Moves (x >>= f) (m + k) := by
  intro o b o' h
  obtain ⟨a, o1, h1, h2⟩ := M.bind_eq_ok.1 h
  rw [hf a o1 b o' h2, hx o a o1 h1]; omega

theorem Moves.map {α β : Type} {x : BinM α} {f : α → β} {m : Nat} (hx : Moves x m) :
    Moves (x >>= fun a => (pure (f a) : BinM β)) m := by
  intro o b o' h
  obtain ⟨a, o1, h1, h2⟩ := M.bind_eq_ok.1 h
  simp at h2
  rw [← h2.2, hx o a o1 h1]

theorem Moves.repeatM {α : Type} {x : BinM α} {m : Nat} (hx : Moves x m) (n : Nat) :
    Moves (repeatM x n) (n * m) := by
  induction n with
  | zero => intro o a o' h; simp [NS.repeatM] at h; omega
  | succ n ih =>
    have := Moves.bind hx fun a => Moves.map (f := fun as => a :: as) ih
    rw [Nat.succ_mul, Nat.add_comm (n * m)]; exact this

theorem skipFields {f : Ty → BinM Val} (fs : List Field) : ∀ o vs o',
    deBinFields f true fs o = .ok vs o' →
    ∃ ws, deTys f ((fs.filter fun f => !f.skip).map (·.ty)) o = .ok ws o' := by
  induction fs with
  | nil => intro o vs o' h; simp [deBinFields] at h; exact ⟨[], by simp [deTys, h.2]⟩
  | cons g fs ih =>
    intro o vs o' h
    by_cases hs : g.skip
    · simp only [deBinFields, hs, and_self, if_true] at h
      obtain ⟨a, o1, h1, h2⟩ := M.bind_eq_ok.1 h
      simp at h1; obtain ⟨_, rfl⟩ := h1
      obtain ⟨as, o2, h3, h4⟩ := M.bind_eq_ok.1 h2
      simp at h4; obtain ⟨_, rfl⟩ := h4
      obtain ⟨ws, hw⟩ := ih _ _ _ h3
      exact ⟨ws, by simpa [hs] using hw⟩
    · simp only [deBinFields, hs, Bool.false_eq_true, and_false, if_false] at h
      obtain ⟨a, o1, h1, h2⟩ := M.bind_eq_ok.1 h
      obtain ⟨as, o2, h3, h4⟩ := M.bind_eq_ok.1 h2
      simp at h4; obtain ⟨_, rfl⟩ := h4
      obtain ⟨ws, hw⟩ := ih _ _ _ h3
      refine ⟨a :: ws, ?_⟩
      have e : ((g :: fs).filter fun f => !f.skip).map (·.ty) =
          g.ty :: (fs.filter fun f => !f.skip).map (·.ty) := by simp [hs]
      rw [e, deTys, M.bind_ok h1, M.bind_ok hw]; rfl

variable {d : List Byte}

theorem Moves.prim {l : Nat} (hl : l < 2 ^ 63) (hd : d.length ≤ isizeMax) (f : List Byte → Val) :
    Moves (readPrim chk d l >>= fun bs => (pure (f bs) : BinM Val)) l :=
  Moves.map fun o a o' h => (readPrim_ok hl hd h).1

mutual
theorem fixed_de (hd : d.length ≤ isizeMax) : ∀ {t m}, FixedSize env t m →
    ∀ n, Moves (deBin env chk d n t) m
  | _, _, h, 0 => fun o a o' h' => by simp [deBin] at h'
  | _, _, .unit, n + 1 => fun o a o' h => by simp [deBin] at h; omega
  | _, _, .bool, n + 1 => Moves.prim (by decide) hd _
  | _, _, .int k, n + 1 => by
    cases k
    case usize => exact Moves.map fun o a o' h => (readUsize_ok hd h).1
    all_goals exact Moves.prim (by decide) hd _
  | _, _, .f32, n + 1 => Moves.prim (by decide) hd _
  | _, _, .f64, n + 1 => Moves.prim (by decide) hd _
  | _, _, .dur, n + 1 => by
    refine Moves.map (m := 12) ?_
    refine Moves.bind (m := 8) (k := 4) (fun o a o' h => (readPrim_ok (by decide) hd h).1) fun s => ?_
    refine Moves.bind (m := 4) (k := 0) (fun o a o' h => (readPrim_ok (by decide) hd h).1) fun n => ?_
    intro o a o' h
    split at h
    · simp [M.bind_def] at h
    · unfold durNew at h
      split at h
      · simp at h; omega
      · split at h
        · simp at h; omega
        · simp at h
  | _, _, .array k hf, n + 1 => Moves.map (Moves.repeatM (fixed_de hd hf n) k)
  | _, _, .pair hf, n + 1 => Moves.map (fixeds_de hd hf n)
  | _, _, .triple hf, n + 1 => Moves.map (fixeds_de hd hf n)
  | _, _, .quad hf, n + 1 => Moves.map (fixeds_de hd hf n)
  | _, _, .box hf, n + 1 => Moves.map (fixed_de hd hf n)
  | _, _, .tupleStruct hdf hf, n + 1 => by
    simp only [deBin, hdf]; exact Moves.map (fixeds_de hd hf n)
  | _, _, .struct (fs := fs) (m := m) hdf hf, n + 1 => by
    simp only [deBin, hdf]
    apply Moves.map
    have hm := fixeds_de hd hf n
    intro o vs o' h
    obtain ⟨ws, hw⟩ := skipFields fs o vs o' h
    exact hm o ws o' hw
  | _, _, .proxied hdf hf, n + 1 => by
    simp only [deBin, hdf]; exact Moves.map (fixed_de hd hf n)
theorem fixeds_de (hd : d.length ≤ isizeMax) : ∀ {ts m}, FixedSizes env ts m →
    ∀ n, Moves (deTys (deBin env chk d n) ts) m
  | _, _, .nil, n => fun o a o' h => by simp [deTys] at h; omega
  | _, _, .cons hf hs, n => Moves.bind (fixed_de hd hf n) fun a =>
      Moves.map (f := fun as => a :: as) (fixeds_de hd hs n)
end

/-- **C14**: every value of a fixed-size type is encoded in the same number of bytes. -/
theorem C14_bin_fixed_size (t : Ty) (m : Nat) (hf : FixedSize env t m) (v : Val)
    (hT : HasTy env t v) : (serializeBin env t v).length = m := fixed_ser hf v hT

/-- **C14**: decoding a fixed-size type consumes exactly that number of bytes. -/
theorem C14_bin_fixed_size_consumed (t : Ty) (m : Nat) (hf : FixedSize env t m) (d : List Byte)
    (hd : d.length ≤ isizeMax) (o : Nat) (v : Val) (o' n : Nat)
    (h : deBin env chk d n t o = .ok v o') : o' = o + m := fixed_de hd hf n o v o' h

/-- `[(u8, Duration); 3]` takes 39 bytes. -/
example : FixedSize exEnv (.array (.pair (.int .u8) .dur) 3) 39 :=
  .array (m := 13) 3 (.pair (.cons (m := 1) (.int .u8) (.cons (m := 12) .dur .nil)))

end NS
