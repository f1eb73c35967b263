import Verif.Lemmas.LittleEndian
import Verif.Lemmas.BinPanic
import Verif.Lemmas.Mono
import Verif.Props.Examples
/-!
# Properties C01–C14: the binary format

Everything is stated for both overflow-check profiles (`chk`), for inputs that fit the address
space (`d.length ≤ isizeMax`, which every Rust slice satisfies), for every environment of
derived definitions with at most 2^16 variants per enum (others do not compile) and, where
containers are involved, lawful `Ord`/`Eq` impls of key types.
-/
set_option linter.unusedVariables false
namespace NS
variable {env : Env} {chk : Bool}

/-! ## C01 round trip -/

/-- **C01**: `deserialize_bin(&serialize_bin(v))` returns `Ok(w)` where `w` is `v` with skipped
fields reset to their defaults: `w` is any value that equals `v` outside skipped fields and whose
skipped fields are `Default::default()`. -/
theorem C01_bin_round_trip (hk : LawfulKeys env) (hs : EnumsSmall env) (t : Ty) (v w : Val)
    (heq : EqUpToSkip env t v w) (hT : HasTy env t w) (hE : BinExact env t w)
    (hlen : (serializeBin env t v).length ≤ isizeMax) :
    Returns (fun n => deserializeBin env chk n t (serializeBin env t v))
      (.ok w (serializeBin env t v).length) := by
  have e : serBin env t v = serBin env t w := serBin_upToSkip v t w heq
  unfold serializeBin at *
  rw [e] at hlen ⊢
  have := readsBack (chk := chk) hk hs hlen w t hT hE 0 ⟨[], [], by simp, rfl⟩
  simpa [deserializeBin] using this

/-- **C01**, without skipped fields: the value itself comes back. -/
theorem C01_bin_round_trip_exact (hk : LawfulKeys env) (hs : EnumsSmall env) (t : Ty) (v : Val)
    (hT : HasTy env t v) (hE : BinExact env t v)
    (hlen : (serializeBin env t v).length ≤ isizeMax) :
    Returns (fun n => deserializeBin env chk n t (serializeBin env t v))
      (.ok v (serializeBin env t v).length) := by
  have := readsBack (chk := chk) hk hs hlen v t hT hE 0 ⟨[], [], by simp [serializeBin], rfl⟩
  simpa [deserializeBin, serializeBin] using this

example : HasTy exEnv (.named 0) exNodeVal' ∧ BinExact exEnv (.named 0) exNodeVal' ∧
    EqUpToSkip exEnv (.named 0) exNodeVal exNodeVal' ∧ exNodeVal ≠ exNodeVal' := by
  refine ⟨?_, ?_, ?_, ?_⟩
  · simp [exNodeVal', HasTy, FieldsTy, exNode, IntKind.inRange, IntKind.lo, IntKind.hi,
      IntKind.signed, IntKind.bytes]
  · simp [exNodeVal', BinExact, Holds, HoldsFields, exNode]
  · simp [exNodeVal, exNodeVal', EqUpToSkip, EqUpToSkipFields, exNode]
  · simp [exNodeVal, exNodeVal', chars]

example : HasTy exEnv (.vec (.named 1)) exVal ∧ BinExact exEnv (.vec (.named 1)) exVal := by
  constructor
  · simp [exVal, exNodeVal', HasTy, AllTy, TysTy, FieldsTy, exNode, exEnum, IntKind.inRange,
      IntKind.lo, IntKind.hi, IntKind.signed, IntKind.bytes, u64Max, isizeMax]
  · simp [exVal, exNodeVal', BinExact, Holds, HoldsAll, HoldsTys, HoldsFields, exNode, exEnum]

/-! ## C02 self-delimiting -/

/-- **C02**: `de_bin` called at the offset of an encoding between arbitrary bytes returns the
value and moves the offset just behind the encoding. -/
theorem C02_bin_embedded (hk : LawfulKeys env) (hs : EnumsSmall env) (t : Ty) (v : Val)
    (hT : HasTy env t v) (hE : BinExact env t v) (pre post : List Byte)
    (hlen : (pre ++ serializeBin env t v ++ post).length ≤ isizeMax) :
    Returns (fun n => deBin env chk (pre ++ serializeBin env t v ++ post) n t pre.length)
      (.ok v (pre ++ serializeBin env t v).length) := by
  have := readsBack (chk := chk) hk hs hlen v t hT hE pre.length ⟨pre, post, rfl, rfl⟩
  simpa [serializeBin] using this

/-! ## C03 truncation -/

/-- **C03**: every strict prefix of an encoding is rejected with an `Err`. -/
theorem C03_bin_truncation (hk : LawfulKeys env) (hs : EnumsSmall env) (t : Ty) (v : Val)
    (hT : HasTy env t v) (hE : BinExact env t v)
    (hlen : (serializeBin env t v).length ≤ isizeMax)
    (p : List Byte) (hp : p <+: serializeBin env t v) (hne : p ≠ serializeBin env t v) :
    Fails (fun n => deserializeBin env chk n t p) := by
  have hrt := C01_bin_round_trip_exact (chk := chk) hk hs t v hT hE hlen
  obtain ⟨n, hn⟩ := hrt
  have hn := hn n (Nat.le_refl _)
  have hpl := hp.length_le
  have hlt : p.length < (serializeBin env t v).length := by
    rcases Nat.lt_or_ge p.length (serializeBin env t v).length with h | h
    · exact h
    · exact absurd (hp.eq_of_length_le h) hne
  obtain ⟨_, _, h⟩ := Local.deBin n t _ _ _ _ hlen hn
  have hA : SameBytes (serializeBin env t v) p 0 (serializeBin env t v).length := by
    intro i _ _ hi
    obtain ⟨r, hr⟩ := hp
    rw [← hr, List.getElem?_append_left hi]
  obtain ⟨e, s, he⟩ := (h p (by omega) (Nat.zero_le _) hA).2 hlt
  exact ⟨e, s, deBin_returns he (by simp)⟩

/-- A strict prefix of a non-trivial encoding. -/
example : ([1, 2, 1] : List Byte) <+: serializeBin exEnv (.named 0) exNodeVal' ∧
    ([1, 2, 1] : List Byte) ≠ serializeBin exEnv (.named 0) exNodeVal' := by
  have : serializeBin exEnv (.named 0) exNodeVal' = [1, 2, 1, 7, 0, 0] := by
    simp [serializeBin, exNodeVal', serBin, serBinFields, exNode, IntKind.bytes, leBytes, toTwos]
  rw [this]; decide

/-! ## C04 locality -/

/-- **C04**: a successful `de_bin` moves the offset forward, not beyond the input, and any input
that agrees on the bytes between the old and the new offset gives the same value and offset. -/
theorem C04_bin_local (t : Ty) (d : List Byte) (o : Nat) (v : Val) (o' : Nat)
    (hd : d.length ≤ isizeMax) (ho : o ≤ d.length)
    (h : Returns (fun n => deBin env chk d n t o) (.ok v o')) :
    o ≤ o' ∧ o' ≤ d.length ∧
    ∀ d' : List Byte, d'.length ≤ isizeMax → o' ≤ d'.length →
      (∀ i, o ≤ i → i < o' → d'[i]? = d[i]?) →
      Returns (fun n => deBin env chk d' n t o) (.ok v o') := by
  obtain ⟨n, hn⟩ := h
  obtain ⟨h1, h2, h3⟩ := Local.deBin n t _ _ _ _ hd (hn n (Nat.le_refl _))
  refine ⟨h1, h2 ho, fun d' hd' hl hA => ?_⟩
  exact deBin_returns ((h3 d' hd' (by omega) fun i a b _ => hA i a b).1 hl) (by simp)

example : Returns (fun n => deBin exEnv true [9, 2, 0, 7] n (.int .u16) 1) (.ok (.int 2) 3) :=
  deBin_returns (n := 1) rfl (by simp)

/-! ## C05 panics -/

/-- **C05** (a panic): a length prefix of `usize::MAX` makes the `String` reader panic, in debug
(`*o + len` overflows) and in release (the wrapped end lies before the start of the slice). -/
theorem C05_bin_string_panics : Returns (fun n => deserializeBin env chk n .str (List.replicate 8 255)) .panic := by
  refine deBin_returns (n := 1) ?_ (by simp)
  cases chk <;> rfl

/-- **C05** (a panic): so does the `Vec` reader for every element type of non-zero size
(`Vec::with_capacity` overflows). -/
theorem C05_bin_vec_panics (t : Ty) (hsz : 1 ≤ env.memSize t) :
    Returns (fun n => deserializeBin env chk n (.vec t) (List.replicate 8 255)) .panic := by
  refine deBin_returns (n := 1) ?_ (by simp)
  have h1 : readUsize chk (List.replicate 8 255) 0 = .ok (2 ^ 64 - 1) 8 := by cases chk <;> rfl
  have h2 : ¬ (2 ^ 64 - 1) * env.memSize t ≤ isizeMax := by
    unfold isizeMax
    have := Nat.mul_le_mul_left (2 ^ 64 - 1) hsz
    omega
  simp only [deBin, M.bind_ok h1, M.bind_def, vecCap, if_neg h2]

/-- **C05** (a panic): `Duration` panics on `secs = u64::MAX, nanos = 1_000_000_000` (the range
check admits exactly one billion and `Duration::new` carries it). -/
theorem C05_bin_duration_panics : Returns (fun n => deserializeBin env chk n .dur
    (List.replicate 8 255 ++ [0, 0xCA, 0x9A, 0x3B])) .panic := by
  refine deBin_returns (n := 1) ?_ (by simp)
  cases chk <;> rfl

/-- **C05** (a panic): `SystemTime` panics when the seconds exceed `i64::MAX`
(`UNIX_EPOCH + duration`). -/
theorem C05_bin_systemtime_panics : Returns (fun n => deserializeBin env chk n .time
    (1 :: List.replicate 8 255 ++ [0, 0, 0, 0])) .panic := by
  refine deBin_returns (n := 1) ?_ (by simp)
  cases chk <;> rfl

/-- **C05**: if `deserialize_bin` panics then at some offset `p` the bytes are, for some type `u` that
occurs in `t`, of one of the four kinds of `PanicsAt` (lengths and seconds near the end of the 64-bit range). -/
theorem C05_bin_panics_only (t : Ty) (d : List Byte) (hd : d.length ≤ isizeMax) (n : Nat)
    (h : deserializeBin env chk n t d = .panic) : ∃ u p, Occurs env t u ∧ PanicsAt env chk d u p :=
  PanicIn.deBin n t d 0 hd (Nat.zero_le _) h

/-- **C05**, the other direction: where the bytes are of one of those kinds, reading that type panics. -/
theorem C05_bin_panics_at (t : Ty) (d : List Byte) (o : Nat) (hd : d.length ≤ isizeMax) (ho : o ≤ d.length)
    (h : PanicsAt env chk d t o) : Returns (fun n => deBin env chk d n t o) .panic :=
  ⟨1, fun n hn => by
    obtain ⟨k, rfl⟩ : ∃ k, n = k + 1 := ⟨n - 1, by omega⟩
    exact deBin_panicsAt k t d o hd ho h⟩

/-- **C05**, in particular: if no eight consecutive bytes of the input read as a number of `B` or more, where
a `Vec` of `B` elements of any type `u` in `t` can still be allocated and `B ≤ 2^63 - 1`, and `with_capacity`
of hash tables does not panic below `B`, then `deserialize_bin` does not panic. -/
theorem C05_bin_small_lengths (t : Ty) (d : List Byte) (hd : d.length ≤ isizeMax) (B : Nat) (hB : B ≤ 2 ^ 63 - 1)
    (hv : ∀ u, Occurs env t u → B * env.memSize u ≤ isizeMax)
    (hh : ∀ sz len, len < B → env.hashCapPanics sz len = false)
    (hsmall : ∀ p, p + 8 ≤ d.length → lenAt d p < B) (n : Nat) : deserializeBin env chk n t d ≠ .panic := by
  intro h
  obtain ⟨u, p, ho, hp⟩ := C05_bin_panics_only t d hd n h
  have hd' : d.length ≤ 2 ^ 63 - 1 := hd
  cases u with
  | str =>
    have h1 := hsmall p hp.1
    have h2 := hp.2.1
    have h3 := hp.1
    omega
  | dur =>
    have h1 := hsmall p (by have := hp.1; omega)
    have h2 := hp.2.1
    omega
  | time =>
    have h1 := hsmall (p + 1) (by have := hp.1; omega)
    have h2 := hp.2.2.1
    have h3 := hp.2.2.2
    have h4 : u32At d (p + 9) / 1000000000 ≤ 1 := by omega
    omega
  | vec w =>
    have h1 := hsmall p hp.1
    have h2 := hv w (ho.trans (.step rfl (.refl w)))
    have h3 : lenAt d p * env.memSize w ≤ B * env.memSize w := Nat.mul_le_mul_right _ (Nat.le_of_lt h1)
    have h4 := hp.2
    omega
  | hset w =>
    have h2 := hp.2
    rw [hh _ _ (hsmall p hp.1)] at h2
    simp at h2
  | hmap k v =>
    have h2 := hp.2
    rw [hh _ _ (hsmall p hp.1)] at h2
    simp at h2
  | _ => exact hp

/-- A recursive type with a `Vec<String>`, and an input with small lengths. -/
example (n : Nat) : deserializeBin (lawEnv [.struct [ { name := chars "tags", ty := .vec .str },
    { name := chars "next", ty := .option (.box (.named 0)) } ] false false] []) true n (.named 0)
    [1, 0, 0, 0, 0, 0, 0, 0, 9, 0, 0, 0, 0, 0, 0, 0, 10] ≠ .panic := by
  refine C05_bin_small_lengths _ _ (by decide) (2 ^ 60 - 1) (by decide) ?_ ?_ ?_ n
  · intro u _; exact Nat.le_of_lt (by show (2 ^ 60 - 1) * 8 < 2 ^ 63 - 1; decide)
  · intro sz len _; rfl
  · intro p hp
    have hp' : p ≤ 9 := by simp at hp; omega
    match p, hp' with
    | 0, _ | 1, _ | 2, _ | 3, _ | 4, _ | 5, _ | 6, _ | 7, _ | 8, _ | 9, _ => decide +kernel

/-- **C05**, in particular: types built without `String`, `Vec`, `HashSet`, `HashMap`, `Duration` and
`SystemTime` (everything else, derived and recursive types included) never panic, on any input. -/
theorem C05_bin_no_panic (t : Ty) (ht : ∀ u, Occurs env t u →
      match u with
      | .str | .vec _ | .hset _ | .hmap _ _ | .dur | .time => False
      | _ => True)
    (d : List Byte) (hd : d.length ≤ isizeMax) (n : Nat) : deserializeBin env chk n t d ≠ .panic := by
  intro h
  obtain ⟨u, p, ho, hp⟩ := C05_bin_panics_only t d hd n h
  have := ht u ho
  cases u <;> first | exact this | exact hp

/-- A recursive type of that kind. -/
example (d : List Byte) (hd : d.length ≤ isizeMax) (n : Nat) :
    deserializeBin (lawEnv [.struct [ { name := chars "id", ty := .int .u16 },
      { name := chars "next", ty := .option (.box (.named 0)) } ] false false] []) true n (.named 0) d ≠ .panic := by
  refine C05_bin_no_panic _ ?_ d hd n
  intro u hu
  have : u ∈ [Ty.int .u16, .option (.box (.named 0)), .box (.named 0), .named 0] := by
    have ht' : Ty.named 0 ∈ [Ty.int .u16, .option (.box (.named 0)), .box (.named 0), .named 0] := by simp
    revert hu ht'
    generalize hL : [Ty.int .u16, .option (.box (.named 0)), .box (.named 0), .named 0] = L
    generalize hE : lawEnv _ _ = E
    generalize Ty.named 0 = t
    intro hu ht'
    induction hu with
    | refl => exact ht'
    | step hc _ ih =>
      refine ih ?_
      subst hL
      simp only [List.mem_cons, List.not_mem_nil, or_false] at ht'
      rcases ht' with rfl | rfl | rfl | rfl
      · exact hc.elim
      · simp [show _ = _ from hc]
      · simp [show _ = _ from hc]
      · obtain ⟨df, hdf, hu⟩ := hc
        subst hE
        simp [lawEnv] at hdf
        subst hdf
        simp only [Def.types, List.map_cons, List.map_nil, List.mem_cons, List.not_mem_nil, or_false] at hu
        rcases hu with rfl | rfl <;> simp
  simp only [List.mem_cons, List.not_mem_nil, or_false] at this
  rcases this with rfl | rfl | rfl | rfl <;> trivial

/-! ## C06 injectivity -/

/-- **C06**: no encoding of a value is a prefix of the encoding of a different value of the
type (in particular equal encodings mean equal values). -/
theorem C06_bin_prefix_free (hk : LawfulKeys env) (hs : EnumsSmall env) (t : Ty) (v w : Val)
    (hv : HasTy env t v) (hve : BinExact env t v) (hw : HasTy env t w) (hwe : BinExact env t w)
    (hlen : (serializeBin env t w).length ≤ isizeMax)
    (h : serializeBin env t v <+: serializeBin env t w) : v = w := by
  have h1 := readsBack (chk := true) hk hs hlen w t hw hwe 0 ⟨[], [], by simp [serializeBin], rfl⟩
  obtain ⟨r, hr⟩ := h
  have h2 := readsBack (chk := true) hk hs hlen v t hv hve 0 ⟨[], r, by simpa [serializeBin] using hr.symm, rfl⟩
  have := Returns.unique h1 h2
  simp at this
  exact this.1.symm

/-- **C06**: equal encodings mean equal values. -/
theorem C06_bin_injective (hk : LawfulKeys env) (hs : EnumsSmall env) (t : Ty) (v w : Val)
    (hv : HasTy env t v) (hve : BinExact env t v) (hw : HasTy env t w) (hwe : BinExact env t w)
    (hlen : (serializeBin env t w).length ≤ isizeMax)
    (h : serializeBin env t v = serializeBin env t w) : v = w :=
  C06_bin_prefix_free hk hs t v w hv hve hw hwe hlen (h ▸ List.prefix_refl _)

end NS
