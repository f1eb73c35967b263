import Verif.Model.Bytes
/-! Lemmas about little-endian bytes, two's complement and UTF-8. -/
namespace NS

@[simp] theorem leBytes_length (n x : Nat) : (leBytes n x).length = n := by
  induction n generalizing x with
  | zero => rfl
  | succ n ih => simp [leBytes, ih]

theorem byte_ofNat_toNat {x : Nat} (h : x < 256) : (UInt8.ofNat x).toNat = x := by
  simp [UInt8.toNat_ofNat']; omega

theorem leVal_leBytes (n x : Nat) (h : x < 256 ^ n) : leVal (leBytes n x) = x := by
  induction n generalizing x with
  | zero => simp at h; simp [leBytes, leVal, h]
  | succ n ih =>
    have h2 : x / 256 < 256 ^ n := by
      rw [Nat.pow_succ] at h
      exact Nat.div_lt_of_lt_mul (by omega)
    simp only [leBytes, leVal, ih _ h2]
    rw [byte_ofNat_toNat (Nat.mod_lt _ (by decide))]
    omega

theorem leVal_lt (bs : List Byte) : leVal bs < 256 ^ bs.length := by
  induction bs with
  | nil => simp [leVal]
  | cons b bs ih =>
    have := b.toNat_lt
    simp only [leVal, List.length_cons, Nat.pow_succ]
    omega

theorem leBytes_leVal (bs : List Byte) : leBytes bs.length (leVal bs) = bs := by
  induction bs with
  | nil => rfl
  | cons b bs ih =>
    have := b.toNat_lt
    simp only [leVal, List.length_cons, leBytes]
    have h1 : (b.toNat + 256 * leVal bs) % 256 = b.toNat := by omega
    have h2 : (b.toNat + 256 * leVal bs) / 256 = leVal bs := by omega
    rw [h1, h2, ih]
    simp

theorem pow256 (n : Nat) : 256 ^ n = 2 ^ (8 * n) := by
  rw [Nat.pow_mul]

theorem toTwos_lt (n : Nat) (i : Int) : toTwos n i < 2 ^ (8 * n) := by
  unfold toTwos
  have hp : (0 : Int) < ((2 ^ (8 * n) : Nat) : Int) := by
    exact_mod_cast Nat.two_pow_pos _
  have h1 := Int.emod_lt_of_pos i hp
  have h2 := Int.emod_nonneg i (Int.ne_of_gt hp)
  omega

/-- Reading back the two's complement representation. -/
theorem ofTwos_toTwos (k : IntKind) (i : Int) (h : k.inRange i) :
    ofTwos k.signed k.bytes (toTwos k.bytes i) = i := by
  cases k <;>
    simp [IntKind.inRange, IntKind.lo, IntKind.hi, IntKind.signed, IntKind.bytes] at h <;>
    simp [ofTwos, toTwos, IntKind.signed, IntKind.bytes] <;> (try split) <;> omega

theorem ofTwos_inRange (k : IntKind) (x : Nat) (h : x < 2 ^ (8 * k.bytes)) :
    k.inRange (ofTwos k.signed k.bytes x) := by
  cases k <;>
    simp [IntKind.inRange, IntKind.lo, IntKind.hi, IntKind.signed, IntKind.bytes, ofTwos] at h ⊢ <;>
    (try split) <;> omega

theorem char_valid (c : Char) : c.toNat < 0xD800 ∨ (0xDFFF < c.toNat ∧ c.toNat < 0x110000) := by
  exact c.valid

theorem char_ofNat_toNat (c : Char) : Char.ofNat c.toNat = c := by
  simp

theorem char_toNat_ofNat {n : Nat} (h : n < 0xD800 ∨ (0xDFFF < n ∧ n < 0x110000)) :
    (Char.ofNat n).toNat = n := by
  have hv : n.isValidChar := h
  unfold Char.ofNat
  rw [dif_pos hv]
  rfl

theorem utf8Char_ne_nil (c : Char) : utf8Char c ≠ [] := by
  unfold utf8Char; simp only; split <;> (try split) <;> (try split) <;> simp

/-- The reader inverts the encoding of one character. -/
theorem fromUtf8_char (c : Char) (r : List Byte) :
    fromUtf8 (utf8Char c ++ r) = (fromUtf8 r).map (c :: ·) := by
  have hv := char_valid c
  have hc := char_ofNat_toNat c
  generalize hn : c.toNat = n at hv hc
  unfold utf8Char
  simp only [hn]
  split
  · rename_i h
    have : (UInt8.ofNat n).toNat = n := byte_ofNat_toNat (by omega)
    rw [List.cons_append, List.nil_append]
    rw [fromUtf8.eq_def]
    simp only [this, hc]
    rw [if_pos h]
  split
  · rename_i h1 h2
    have e1 : (UInt8.ofNat (0xC0 + n / 64)).toNat = 0xC0 + n / 64 := byte_ofNat_toNat (by omega)
    have e2 : (UInt8.ofNat (0x80 + n % 64)).toNat = 0x80 + n % 64 := byte_ofNat_toNat (by omega)
    have e3 : (0xC0 + n / 64 - 0xC0) * 64 + (0x80 + n % 64 - 0x80) = n := by omega
    simp only [List.cons_append, List.nil_append, fromUtf8, isCont, e1, e2, e3, hc]
    rw [if_neg (by omega), if_pos (by omega), if_pos (by simp; omega)]
  split
  · rename_i h1 h2 h3
    have e1 : (UInt8.ofNat (0xE0 + n / 4096)).toNat = 0xE0 + n / 4096 :=
      byte_ofNat_toNat (by omega)
    have e2 : (UInt8.ofNat (0x80 + n / 64 % 64)).toNat = 0x80 + n / 64 % 64 :=
      byte_ofNat_toNat (by omega)
    have e3 : (UInt8.ofNat (0x80 + n % 64)).toNat = 0x80 + n % 64 := byte_ofNat_toNat (by omega)
    have e4 : (0xE0 + n / 4096 - 0xE0) * 4096 + (0x80 + n / 64 % 64 - 0x80) * 64
        + (0x80 + n % 64 - 0x80) = n := by omega
    simp only [List.cons_append, List.nil_append, fromUtf8, isCont, e1, e2, e3, e4, hc]
    rw [if_neg (by omega), if_neg (by omega), if_pos (by omega), if_pos (by simp; omega)]
  · rename_i h1 h2 h3
    have e1 : (UInt8.ofNat (0xF0 + n / 262144)).toNat = 0xF0 + n / 262144 :=
      byte_ofNat_toNat (by omega)
    have e2 : (UInt8.ofNat (0x80 + n / 4096 % 64)).toNat = 0x80 + n / 4096 % 64 :=
      byte_ofNat_toNat (by omega)
    have e3 : (UInt8.ofNat (0x80 + n / 64 % 64)).toNat = 0x80 + n / 64 % 64 :=
      byte_ofNat_toNat (by omega)
    have e4 : (UInt8.ofNat (0x80 + n % 64)).toNat = 0x80 + n % 64 := byte_ofNat_toNat (by omega)
    have e5 : (0xF0 + n / 262144 - 0xF0) * 262144 + (0x80 + n / 4096 % 64 - 0x80) * 4096
        + (0x80 + n / 64 % 64 - 0x80) * 64 + (0x80 + n % 64 - 0x80) = n := by omega
    simp only [List.cons_append, List.nil_append, fromUtf8, isCont, e1, e2, e3, e4, e5, hc]
    rw [if_neg (by omega), if_neg (by omega), if_neg (by omega), if_pos (by omega),
      if_pos (by simp; omega)]

/-- `from_utf8` accepts every encoded string and returns it. -/
theorem fromUtf8_utf8 (s : List Char) : fromUtf8 (utf8 s) = some s := by
  induction s with
  | nil => simp [utf8, fromUtf8]
  | cons c s ih =>
    have : utf8 (c :: s) = utf8Char c ++ utf8 s := by simp [utf8]
    rw [this, fromUtf8_char, ih]; rfl

/-- `from_utf8` accepts nothing but encodings. -/
theorem utf8_fromUtf8 (bs : List Byte) (s : List Char) (h : fromUtf8 bs = some s) :
    utf8 s = bs := by
  fun_induction fromUtf8 bs generalizing s with
  | case1 => simp at h; subst h; rfl
  | case2 a r h1 ih =>
    simp only [Option.map_eq_some_iff] at h
    obtain ⟨s', hs, rfl⟩ := h
    have := ih s' hs
    have hv := char_toNat_ofNat (n := a.toNat) (by omega)
    simp [utf8] at this ⊢
    simp [this, utf8Char, hv, h1]
  | case3 a h1 h2 b r hb ih =>
    simp only [Option.map_eq_some_iff] at h
    obtain ⟨s', hs, rfl⟩ := h
    have := ih s' hs
    simp [isCont] at hb
    have hv := char_toNat_ofNat (n := (a.toNat - 0xC0) * 64 + (b.toNat - 0x80)) (by omega)
    simp [utf8] at this ⊢
    simp only [this, utf8Char, hv]
    rw [if_neg (by omega), if_pos (by omega)]
    have e1 : 0xC0 + ((a.toNat - 0xC0) * 64 + (b.toNat - 0x80)) / 64 = a.toNat := by omega
    have e2 : 0x80 + ((a.toNat - 0xC0) * 64 + (b.toNat - 0x80)) % 64 = b.toNat := by omega
    simp only [e1, e2, UInt8.ofNat_toNat, List.cons_append, List.nil_append]
  | case6 a h1 h2 h3 b c r hb ih =>
    simp only [Option.map_eq_some_iff] at h
    obtain ⟨s', hs, rfl⟩ := h
    have := ih s' hs
    simp [isCont] at hb
    have hv := char_toNat_ofNat (n := (a.toNat - 0xE0) * 4096 + (b.toNat - 0x80) * 64
      + (c.toNat - 0x80)) (by omega)
    simp [utf8] at this ⊢
    simp only [this, utf8Char, hv]
    rw [if_neg (by omega), if_neg (by omega), if_pos (by omega)]
    have e1 : 0xE0 + ((a.toNat - 0xE0) * 4096 + (b.toNat - 0x80) * 64 + (c.toNat - 0x80)) / 4096
      = a.toNat := by omega
    have e2 : 0x80 + ((a.toNat - 0xE0) * 4096 + (b.toNat - 0x80) * 64 + (c.toNat - 0x80)) / 64 % 64
      = b.toNat := by omega
    have e3 : 0x80 + ((a.toNat - 0xE0) * 4096 + (b.toNat - 0x80) * 64 + (c.toNat - 0x80)) % 64
      = c.toNat := by omega
    simp only [e1, e2, e3, UInt8.ofNat_toNat, List.cons_append, List.nil_append]
  | case9 a h1 h2 h3 h4 b c d r hb ih =>
    simp only [Option.map_eq_some_iff] at h
    obtain ⟨s', hs, rfl⟩ := h
    have := ih s' hs
    simp [isCont] at hb
    have hv := char_toNat_ofNat (n := (a.toNat - 0xF0) * 262144 + (b.toNat - 0x80) * 4096
      + (c.toNat - 0x80) * 64 + (d.toNat - 0x80)) (by omega)
    simp [utf8] at this ⊢
    simp only [this, utf8Char, hv]
    rw [if_neg (by omega), if_neg (by omega), if_neg (by omega)]
    generalize hx : (a.toNat - 0xF0) * 262144 + (b.toNat - 0x80) * 4096
      + (c.toNat - 0x80) * 64 + (d.toNat - 0x80) = x at *
    have e1 : 0xF0 + x / 262144 = a.toNat := by omega
    have e2 : 0x80 + x / 4096 % 64 = b.toNat := by omega
    have e3 : 0x80 + x / 64 % 64 = c.toNat := by omega
    have e4 : 0x80 + x % 64 = d.toNat := by omega
    simp only [e1, e2, e3, e4, UInt8.ofNat_toNat, List.cons_append, List.nil_append]
  | _ => simp at h

end NS
