import Verif.Lemmas.JsonBadNum
import Verif.Props.ExamplesText
/-! # Properties C18–C20, C36: JSON numbers -/
namespace NS
variable {env : Env} {fl : FloatOps}

theorem int_settles {k : IntKind} (hk : k.textual = true) {t : Num} {i : Int} (h : decInt k t = some i) :
    Settles env fl (.int k) (.num t) (.ok (.int i)) := by
  refine ⟨by simp, 1, fun n hn => ?_⟩
  obtain ⟨m, rfl⟩ : ∃ m, n = m + 1 := ⟨n - 1, by omega⟩
  simp [decode, hk, h]

theorem int_settles_err {k : IntKind} (hk : k.textual = true) {t : Num} (h : decInt k t = none) :
    Settles env fl (.int k) (.num t) .err := by
  refine ⟨by simp, 1, fun n hn => ?_⟩
  obtain ⟨m, rfl⟩ : ∃ m, n = m + 1 := ⟨n - 1, by omega⟩
  simp [decode, hk, h]

theorem IntKind.hi_le_u64 {k : IntKind} (hk : k.textual = true) : k.hi ≤ u64Max := by
  cases k <;> simp [IntKind.textual] at hk <;> decide

theorem IntKind.lo_unsigned {k : IntKind} (hs : k.signed = false) : k.lo = 0 := by simp [IntKind.lo, hs]
theorem IntKind.hi_nonneg (k : IntKind) : 0 ≤ k.hi := by cases k <;> decide

/-! ## C18 -/

/-- **C18**: a decimal numeral (any number of digits, leading zeros, optional `+`) in any layout is
read at an unsigned type as exactly its value if that fits, and is an error otherwise. -/
theorem C18_json_unsigned_range (k : IntKind) (hk : k.textual = true) (hs : k.signed = false)
    (w sg ds w' : List Char) (hw : Layout w) (hsg : sg = [] ∨ sg = ['+']) (hne : ds ≠ []) (hds : Digits ds)
    (hw' : LayoutEnd w') :
    ((decimal ds : Int) ≤ k.hi →
      Decodes (fun n => deserializeJson env fl n (.int k) (w ++ (sg ++ ds) ++ w')) (.int (decimal ds))) ∧
    (k.hi < (decimal ds : Int) →
      Rejects (fun n => deserializeJson env fl n (.int k) (w ++ (sg ++ ds) ++ w'))) := by
  have hhi := IntKind.hi_le_u64 hk
  have h0 := k.hi_nonneg
  constructor
  · intro h
    refine (int_settles hk ?_).decodes (num_text hw (.nat hsg hne hds (by omega)) hw')
    have := ofTwos_toTwos k (decimal ds) ⟨by rw [IntKind.lo_unsigned hs]; omega, h⟩
    simp only [decInt, hs, castInt] at *
    rw [if_neg (by omega), this]
  · intro h
    by_cases hu : decimal ds ≤ u64Max
    · refine (int_settles_err hk ?_).rejects (num_text hw (.nat hsg hne hds hu) hw')
      simp only [decInt, hs]
      rw [if_pos (by omega)]
    · rw [List.append_assoc]
      refine rejects_first hw (badInt_first (by rcases hsg with h | h <;> simp [h]) hne hds hw'.stopNum ?_)
      rcases hsg with rfl | rfl <;> simp <;> omega

/-- ` +0255//x` as `u8`. -/
example : Decodes (fun n => deserializeJson exJEnv toyFloat n (.int .u8)
    (([' '] : List Char) ++ (['+'] ++ ['0', '2', '5', '5']) ++ ['/', '/', 'x'])) (.int 255) :=
  (C18_json_unsigned_range .u8 rfl rfl [' '] ['+'] ['0', '2', '5', '5'] ['/', '/', 'x']
    (.space (.inl rfl) .nil) (.inr rfl) (by simp) (by unfold Digits; decide)
    (.inr ⟨[], ['x'], .nil, by decide, by decide, rfl⟩)).1 (by decide)

example : Rejects (fun n => deserializeJson exJEnv toyFloat n (.int .u8) ([] ++ ([] ++ ['2', '5', '6']) ++ [])) :=
  (C18_json_unsigned_range .u8 rfl rfl [] [] ['2', '5', '6'] [] .nil (.inl rfl) (by simp)
    (by unfold Digits; decide) (.inl .nil)).2 (by decide)

/-! ## C19 -/

/-- The value of a numeral with its sign. -/
def signedDecimal (sg ds : List Char) : Int := if sg = ['-'] then -(decimal ds : Int) else decimal ds

/-- **C19** for every numeral outside `[2^63, 2^64)` (for those see
`C19_json_signed_wraps`): the value if it fits the type, an error otherwise. -/
theorem C19_json_signed_range (k : IntKind) (hk : k.textual = true) (hs : k.signed = true)
    (w sg ds w' : List Char) (hw : Layout w) (hsg : sg = [] ∨ sg = ['-'] ∨ sg = ['+']) (hne : ds ≠ [])
    (hds : Digits ds) (hw' : LayoutEnd w')
    (hno : ¬ (2 ^ 63 ≤ signedDecimal sg ds ∧ signedDecimal sg ds < 2 ^ 64)) :
    (k.inRange (signedDecimal sg ds) →
      Decodes (fun n => deserializeJson env fl n (.int k) (w ++ (sg ++ ds) ++ w')) (.int (signedDecimal sg ds))) ∧
    (¬ k.inRange (signedDecimal sg ds) →
      Rejects (fun n => deserializeJson env fl n (.int k) (w ++ (sg ++ ds) ++ w'))) := by
  have hb : -(2 ^ 63 : Int) ≤ k.lo ∧ k.hi < 2 ^ 63 ∧ k.lo ≤ 0 := by
    cases k <;> simp [IntKind.textual] at hk <;> simp [IntKind.signed] at hs <;> decide
  have h0 := k.hi_nonneg
  have hu : (u64Max : Int) = 2 ^ 64 - 1 := by decide
  have hrt := fun h => ofTwos_toTwos k (signedDecimal sg ds) h
  by_cases hm : sg = ['-']
  · subst hm
    simp only [signedDecimal, if_true] at *
    have hlit : decimal ds ≤ 2 ^ 63 → NumLit fl (['-'] ++ ds) (.neg (-(decimal ds : Int))) :=
      fun h => .neg hne hds h
    constructor
    · intro h
      refine (int_settles hk ?_).decodes (num_text hw (hlit ?_) hw')
      · have := hrt h
        simp only [decInt, hs, castInt] at *
        rw [if_neg (by have := h.1; omega), this]
      · have := h.1; omega
    · intro h
      by_cases h63 : decimal ds ≤ 2 ^ 63
      · refine (int_settles_err hk ?_).rejects (num_text hw (hlit h63) hw')
        simp only [decInt, hs]
        rw [if_pos]
        unfold IntKind.inRange at h
        omega
      · rw [List.append_assoc]
        refine rejects_first hw (badInt_first (.inr (.inl rfl)) hne hds hw'.stopNum ?_)
        simp; omega
  · have hsg' : sg = [] ∨ sg = ['+'] := by
      rcases hsg with h | h | h
      · exact .inl h
      · exact absurd h hm
      · exact .inr h
    have hsd : signedDecimal sg ds = decimal ds := by simp [signedDecimal, hm]
    rw [hsd]
    rw [hsd] at hno hrt
    have hlit : decimal ds ≤ u64Max → NumLit fl (sg ++ ds) (.nat (decimal ds)) :=
      fun h => .nat hsg' hne hds h
    constructor
    · intro h
      have h2 := h.2
      refine (int_settles hk ?_).decodes (num_text hw (hlit (by omega)) hw')
      have := hrt h
      have hc : u64AsI64 (decimal ds) = decimal ds := if_pos (by omega)
      simp only [decInt, hs, castInt, hc] at *
      rw [if_neg (by omega), this]
    · intro h
      by_cases h63 : decimal ds < 2 ^ 63
      · refine (int_settles_err hk ?_).rejects (num_text hw (hlit (by omega)) hw')
        have hc : u64AsI64 (decimal ds) = decimal ds := if_pos (by omega)
        simp only [decInt, hs, hc]
        rw [if_pos]
        unfold IntKind.inRange at h
        omega
      · rw [List.append_assoc]
        refine rejects_first hw (badInt_first hsg hne hds hw'.stopNum ?_)
        rw [if_neg hm]
        omega

/-- **C19** (the exception): every numeral from `2^63` up to `2^64 - 1` is accepted at every signed type,
although no signed type holds it; the value read is the one that agrees with it modulo the size of
the type (`src/serde_json.rs:412-415`, `value as i64`, then `as i8` etc.). -/
theorem C19_json_signed_wraps (k : IntKind) (hk : k.textual = true) (hs : k.signed = true)
    (w sg ds w' : List Char) (hw : Layout w) (hsg : sg = [] ∨ sg = ['+']) (hne : ds ≠ [])
    (hds : Digits ds) (hw' : LayoutEnd w') (h1 : 2 ^ 63 ≤ decimal ds) (h2 : decimal ds < 2 ^ 64) :
    ¬ k.inRange (decimal ds) ∧ ∃ i, i % 2 ^ (8 * k.bytes) = (decimal ds : Int) % 2 ^ (8 * k.bytes) ∧
      Decodes (fun n => deserializeJson env fl n (.int k) (w ++ (sg ++ ds) ++ w')) (.int i) := by
  have h0 := k.hi_nonneg
  have hu : (u64Max : Int) = 2 ^ 64 - 1 := by decide
  have hb : k.hi < 2 ^ 63 := by
    cases k <;> simp [IntKind.textual] at hk <;> simp [IntKind.signed] at hs <;> decide
  refine ⟨fun h => by have := h.2; omega, castInt k (u64AsI64 (decimal ds)), ?_, ?_⟩
  · have he : u64AsI64 (decimal ds) = (decimal ds : Int) - 2 ^ 64 := by
      rw [u64AsI64, if_neg (by omega)]
    rw [he]
    generalize (decimal ds : Int) = v
    cases k <;> simp [IntKind.textual] at hk <;> simp [IntKind.signed] at hs <;>
      simp only [castInt, IntKind.signed, IntKind.bytes, ofTwos, toTwos] <;> split <;> omega
  · refine (int_settles hk ?_).decodes (num_text hw (.nat hsg hne hds (by omega)) hw')
    have hc : u64AsI64 (decimal ds) = (decimal ds : Int) - 2 ^ 64 := if_neg (by omega)
    simp only [decInt, hs, hc]
    rw [if_neg (by omega)]

example : Decodes (fun n => deserializeJson exJEnv toyFloat n (.int .i16)
    ([] ++ (['-'] ++ ['0', '3', '2', '7', '6', '8']) ++ [])) (.int (-32768)) :=
  (C19_json_signed_range .i16 rfl rfl [] ['-'] ['0', '3', '2', '7', '6', '8'] [] .nil (.inr (.inl rfl))
    (by simp) (by unfold Digits; decide) (.inl .nil) (by decide)).1 (by decide)

/-- `18446744073709551615` as `i8`. -/
example : ¬ IntKind.i8.inRange (decimal "18446744073709551615".toList) ∧ ∃ i,
    i % 2 ^ (8 * IntKind.i8.bytes) = (decimal "18446744073709551615".toList : Int) % 2 ^ (8 * IntKind.i8.bytes) ∧
    Decodes (fun n => deserializeJson exJEnv toyFloat n (.int .i8) ([] ++ ([] ++ "18446744073709551615".toList) ++ []))
      (.int i) :=
  C19_json_signed_wraps .i8 rfl rfl [] [] _ [] .nil (.inl rfl) (by decide) (by unfold Digits; decide)
    (.inl .nil) (by decide) (by decide)

/-! ## C20 -/

/-- Canonical decimal text of an integer: an optional minus and digits without superfluous zeros. -/
def CanonicalInt (txt : List Char) (i : Int) : Prop :=
  ∃ sg ds, txt = sg ++ ds ∧ ds ≠ [] ∧ Digits ds ∧ (ds = ['0'] ∨ ds.head? ≠ some '0') ∧
    ((0 ≤ i ∧ sg = [] ∧ i = decimal ds) ∨ (i < 0 ∧ sg = ['-'] ∧ i = -(decimal ds : Int)))

/-- **C20**: every integer is written in canonical decimal and read back. -/
theorem C20_json_int_roundtrip (chk : Bool) (k : IntKind) (hk : k.textual = true) (i : Int) (hi : k.inRange i) :
    ∃ txt, serializeJson env fl chk (.int k) (.int i) = some txt ∧ CanonicalInt txt i ∧
      Decodes (fun n => deserializeJson env fl n (.int k) txt) (.int i) := by
  refine ⟨showInt i, by simp [serializeJson, visitsEmptyArray, serJson], ?_, ?_⟩
  · unfold showInt
    by_cases h : i < 0
    · rw [if_pos h]
      exact ⟨['-'], showNat i.natAbs, rfl, showNat_ne_nil _, digits_showNat _, showNat_head _,
        .inr ⟨h, rfl, by rw [decimal_showNat]; omega⟩⟩
    · rw [if_neg h]
      exact ⟨[], showNat i.natAbs, rfl, showNat_ne_nil _, digits_showNat _, showNat_head _,
        .inl ⟨by omega, rfl, by rw [decimal_showNat]; omega⟩⟩
  · obtain ⟨h1, h2⟩ := inRange_text hk hi
    have := num_text (fl := fl) (w := []) (w' := []) .nil (showInt_lit h1 h2) (.inl .nil)
    simp only [List.nil_append, List.append_nil] at this
    exact (int_settles hk (decInt_intNum hk hi)).decodes this

example : ∃ txt, serializeJson exJEnv toyFloat true (.int .i64) (.int (-9223372036854775808)) = some txt ∧
    CanonicalInt txt (-9223372036854775808) ∧
    Decodes (fun n => deserializeJson exJEnv toyFloat n (.int .i64) txt) (.int (-9223372036854775808)) :=
  C20_json_int_roundtrip true .i64 rfl _ (by decide)

/-! ## C36 -/

/-- **C36**, round trip of every finite `f64`. -/
theorem C36_json_f64_roundtrip (chk : Bool) (hfl : FloatLaws fl) (x : BitVec 64) (hx : finite64 x) :
    ∃ txt, serializeJson env fl chk .f64 (.f64 x) = some txt ∧
      Decodes (fun n => deserializeJson env fl n .f64 txt) (.f64 x) := by
  refine ⟨_, by simp [serializeJson, visitsEmptyArray, serJson]; rfl, ?_⟩
  have := num_text (fl := fl) (w := []) (w' := []) .nil (floatLit_num (hfl.lit64 x hx) (hfl.parse_show64 x hx)) (.inl .nil)
  simp only [List.nil_append, List.append_nil] at this
  exact Settles.decodes (t := .f64) (v := .f64 x) ⟨by simp, 1, fun n hn => by
    obtain ⟨m, rfl⟩ : ∃ m, n = m + 1 := ⟨n - 1, by omega⟩
    rfl⟩ this

/-- **C36**, round trip of every finite `f32`. -/
theorem C36_json_f32_roundtrip (chk : Bool) (hfl : FloatLaws fl) (x : BitVec 32) (hx : finite32 x) :
    ∃ txt, serializeJson env fl chk .f32 (.f32 x) = some txt ∧
      Decodes (fun n => deserializeJson env fl n .f32 txt) (.f32 x) := by
  refine ⟨_, by simp [serializeJson, visitsEmptyArray, serJson]; rfl, ?_⟩
  obtain ⟨y, h1, h2⟩ := hfl.parse_show32 x hx
  have := num_text (fl := fl) (w := []) (w' := []) .nil (floatLit_num (hfl.lit32 x hx) h1) (.inl .nil)
  simp only [List.nil_append, List.append_nil] at this
  refine Settles.decodes (t := .f32) (v := .f32 x) ⟨by simp, 1, fun n hn => ?_⟩ this
  obtain ⟨m, rfl⟩ : ∃ m, n = m + 1 := ⟨n - 1, by omega⟩
  simp [decode, decFloat, h2]

theorem rfc_digits {s : List Char} : (∀ c ∈ s, Rfc.Digit c) ↔ Digits s := by
  constructor
  · intro h c hc
    exact h c hc
  · intro h c hc
    exact h c hc

/-- The shape of a number literal: sign, integer part, fraction, exponent. -/
def NumParts (sg ip fr ex : List Char) : Prop :=
  (sg = [] ∨ sg = ['-']) ∧ (ip = ['0'] ∨ (∃ d ds, ip = d :: ds ∧ Rfc.Digit d ∧ d ≠ '0' ∧ ∀ c ∈ ds, Rfc.Digit c)) ∧
    (fr = [] ∨ ∃ f, fr = '.' :: f ∧ f ≠ [] ∧ ∀ c ∈ f, Rfc.Digit c) ∧
    (ex = [] ∨ ∃ e m x, ex = e :: (m ++ x) ∧ (e = 'e' ∨ e = 'E') ∧ (m = [] ∨ m = ['-'] ∨ m = ['+']) ∧
      x ≠ [] ∧ ∀ c ∈ x, Rfc.Digit c)

theorem NumParts.ip_ne {sg ip fr ex} (h : NumParts sg ip fr ex) : ip ≠ [] := by
  obtain ⟨_, h | ⟨d, ds, h, _⟩, _⟩ := h <;> simp [h]

theorem NumParts.digits {sg ip fr ex} (h : NumParts sg ip fr ex) : Digits ip := by
  obtain ⟨_, h | ⟨d, ds, h, hd, _, hds⟩, _⟩ := h
  · subst h; unfold Digits; decide
  · subst h
    intro c hc
    rcases List.mem_cons.1 hc with rfl | hc
    · exact hd
    · exact hds c hc

/-- **C36**, every RFC 8259 number in any layout is accepted at `f64` and, rounded once more, at `f32`,
except those of the next two theorems (a `+` in the exponent; an integer outside the ranges of `u64` and
`i64`).  With a fraction or an exponent its value is what std's parser gives for it, without them it is
the conversion of the integer. -/
theorem C36_json_reads_rfc8259_numbers (hfl : FloatLaws fl) (w sg ip fr ex w' : List Char)
    (hw : Layout w) (hw' : LayoutEnd w') (h : NumParts sg ip fr ex)
    (hplus : ¬ ∃ e x, ex = e :: '+' :: x)
    (hint : fr = [] → ex = [] → if sg = ['-'] then decimal ip ≤ 2 ^ 63 else decimal ip ≤ u64Max) :
    ∃ x, Decodes (fun n => deserializeJson env fl n .f64 (w ++ (sg ++ ip ++ fr ++ ex) ++ w')) (.f64 x) ∧
      Decodes (fun n => deserializeJson env fl n .f32 (w ++ (sg ++ ip ++ fr ++ ex) ++ w')) (.f32 (fl.to32 x)) ∧
      (fr ≠ [] ∨ ex ≠ [] → fl.parse64 (sg ++ ip ++ fr ++ ex) = some x) ∧
      (fr = [] → ex = [] → x = if sg = ['-'] then fl.ofI64 (-(decimal ip : Int)) else fl.ofU64 (decimal ip)) := by
  have hne := h.ip_ne
  have hd := h.digits
  have hpar := hfl.parse_total (sg ++ ip ++ fr ++ ex) ⟨sg, ip, fr, ex, rfl, h⟩
  obtain ⟨h1, h2, h3, h4⟩ := h
  have dec : ∀ t : Num, NumLit fl (sg ++ ip ++ fr ++ ex) t →
      Decodes (fun n => deserializeJson env fl n .f64 (w ++ (sg ++ ip ++ fr ++ ex) ++ w')) (.f64 (decFloat fl t)) ∧
      Decodes (fun n => deserializeJson env fl n .f32 (w ++ (sg ++ ip ++ fr ++ ex) ++ w')) (.f32 (fl.to32 (decFloat fl t))) := by
    intro t ht
    constructor
    · refine Settles.decodes (t := .f64) ⟨by simp, 1, fun n hn => ?_⟩ (num_text hw ht hw')
      obtain ⟨m, rfl⟩ : ∃ m, n = m + 1 := ⟨n - 1, by omega⟩
      rfl
    · refine Settles.decodes (t := .f32) ⟨by simp, 1, fun n hn => ?_⟩ (num_text hw ht hw')
      obtain ⟨m, rfl⟩ : ∃ m, n = m + 1 := ⟨n - 1, by omega⟩
      rfl
  by_cases hf : fr ≠ [] ∨ ex ≠ []
  · obtain ⟨x, hx⟩ := Option.isSome_iff_exists.1 hpar
    refine ⟨x, (dec (.float x) ?_).1, (dec (.float x) ?_).2, fun _ => hx, fun e1 e2 => by simp [e1, e2] at hf⟩ <;>
    · refine .float (by rcases h1 with h | h <;> simp [h]) (by simp [hne]) hd ?_ ?_ hf hx
      · rcases h3 with h | ⟨f, h, _, hf⟩
        · exact .inl h
        · exact .inr ⟨f, h, hf⟩
      · rcases h4 with h | ⟨e, m, y, h, he, hm, hy, hyd⟩
        · exact .inl h
        · refine .inr ⟨e, m, y, h, he, ?_, hy, hyd⟩
          rcases hm with h' | h' | h'
          · exact .inl h'
          · exact .inr h'
          · exact absurd ⟨e, y, by rw [h, h']; rfl⟩ hplus
  · simp only [not_or, ne_eq, Decidable.not_not] at hf
    obtain ⟨rfl, rfl⟩ := hf
    have hi := hint rfl rfl
    simp only [List.append_nil] at *
    rcases h1 with rfl | rfl
    · simp at hi
      obtain ⟨g1, g2⟩ := dec _ (.nat (sg := []) (.inl rfl) hne hd hi)
      exact ⟨_, g1, g2, fun h => by simp at h, fun _ _ => by simp [decFloat]⟩
    · simp at hi
      obtain ⟨g1, g2⟩ := dec _ (.neg hne hd hi)
      exact ⟨_, g1, g2, fun h => by simp at h, fun _ _ => by simp [decFloat]⟩

/-- **C36** (an exception): numbers with `+` in the exponent: they are rejected at every type. -/
theorem C36_json_plus_exponent_rejected (hfl : FloatLaws fl) (t : Ty) (w sg ip fr x w' : List Char) (e : Char)
    (hw : Layout w) (h : NumParts sg ip fr (e :: '+' :: x)) :
    Rejects (fun n => deserializeJson env fl n t (w ++ ((sg ++ ip ++ fr ++ e :: '+' :: x) ++ w'))) := by
  have hne := h.ip_ne
  have hd := h.digits
  obtain ⟨h1, h2, h3, h4⟩ := h
  have he : e = 'e' ∨ e = 'E' := by
    rcases h4 with h | ⟨e', m, y, h, he, _⟩
    · cases h
    · injection h with h _; subst h; exact he
  refine rejects_first hw ?_
  obtain ⟨y, r, ey, hy⟩ : ∃ y r, (sg ++ ip ++ fr ++ e :: '+' :: x) ++ w' = y :: r ∧ (y = '-' ∨ y = '+' ∨ isDig y = true) := by
    rcases h1 with rfl | rfl
    · obtain ⟨d, ds', rfl⟩ := List.exists_cons_of_ne_nil hne
      exact ⟨d, _, rfl, .inr (.inr (digits_isDig hd d (by simp)))⟩
    · exact ⟨_, _, rfl, .inl rfl⟩
  rw [ey]
  refine badNum_first hy fun c hc => ?_
  rw [← ey] at hc
  obtain ⟨c', _, h'⟩ := lexNum_float' (k := jcol) (fl := fl) (c := c) (sg := sg) (ip := ip) (fr := fr) (ex := [e])
    (s := sg ++ ip ++ fr ++ [e]) (tail := '+' :: (x ++ w')) rfl (by rcases h1 with h | h <;> simp [h]) (by simp [hne]) hd
    (by
      rcases h3 with h | ⟨f, h, _, hf⟩
      · exact .inl h
      · exact .inr ⟨f, h, hf⟩)
    (.inr ⟨e, [], [], rfl, he, .inl rfl, .inr (by simp), by intro c hc; simp at hc⟩) (.inr (by simp))
    (by rw [hc]; simp) (StopAt.cons (by decide))
  refine ⟨c', h'.trans ?_⟩
  rw [hfl.parse_bare_exp _ e [] he (.inl rfl)]
  rfl

/-- **C36** (an exception): integer literals beyond the 64-bit ranges: they are rejected at every type,
`f64` included. -/
theorem C36_json_big_integer_rejected (t : Ty) (w sg ds w' : List Char) (hw : Layout w)
    (hsg : sg = [] ∨ sg = ['-'] ∨ sg = ['+']) (hne : ds ≠ []) (hds : Digits ds) (hw' : LayoutEnd w')
    (hbig : if sg = ['-'] then 2 ^ 63 < decimal ds else u64Max < decimal ds) :
    Rejects (fun n => deserializeJson env fl n t (w ++ (sg ++ ds ++ w'))) :=
  rejects_first hw (badInt_first hsg hne hds hw'.stopNum hbig)

theorem nonfinite_rejected (t : Ty) {s : List Char} (h : s ∈ [['N', 'a', 'N'], ['i', 'n', 'f'], ['-', 'i', 'n', 'f']]) :
    Rejects (fun n => deserializeJson env fl n t s) := by
  have := rejects_first (env := env) (fl := fl) (t := t) (w := []) (txt := s) .nil ?_
  · simpa using this
  · simp only [List.mem_cons, List.not_mem_nil, or_false] at h
    rcases h with rfl | rfl | rfl
    · intro st hst
      rw [jNext_start hst (by decide) (by decide)]
      obtain ⟨q1, q2⟩ := span_run (k := jcol) (p := isIdStart) (a := ['N', 'a', 'N']) (b := []) hst (by decide) StopAt.nil
      simp only [jTok, Cur.ch_cons hst, q1]
      exact ⟨_, _, rfl⟩
    · intro st hst
      rw [jNext_start hst (by decide) (by decide)]
      obtain ⟨q1, q2⟩ := span_run (k := jcol) (p := isIdStart) (a := ['i', 'n', 'f']) (b := []) hst (by decide) StopAt.nil
      simp only [jTok, Cur.ch_cons hst, q1]
      exact ⟨_, _, rfl⟩
    · refine badNum_first (.inl rfl) fun c hc => ?_
      obtain ⟨c', _, h'⟩ := lexNum_int (k := jcol) (fl := fl) (c := c) (sg := ['-']) (ds := []) (tail := ['i', 'n', 'f']) hc
        (.inr (.inl rfl)) (by simp) (by simp) (StopAt.cons (by decide))
      exact ⟨c', h'⟩

/-- **C36**, non-finite values: what is written for them is rejected by every reader. -/
theorem C36_json_nonfinite_unreadable (hfl : FloatLaws fl) (chk : Bool) (x : BitVec 64) (hx : ¬ finite64 x) :
    ∃ txt, serializeJson env fl chk .f64 (.f64 x) = some txt ∧
      ∀ t, Rejects (fun n => deserializeJson env fl n t txt) :=
  ⟨fl.show64 x, by simp [serializeJson, visitsEmptyArray, serJson], fun t => nonfinite_rejected t (hfl.nonfinite64 x hx)⟩

example : FloatLaws toyFloat := toyFloat_laws
example : finite64 0x4009_21FB_5444_2D18 ∧ ¬ finite64 0x7FF0_0000_0000_0000 := by decide
/-- `-12.50e-3` is covered by the theorem. -/
example : ∃ x, Decodes (fun n => deserializeJson exJEnv toyFloat n .f64
    ([] ++ (['-'] ++ ['1', '2'] ++ ['.', '5', '0'] ++ ['E', '-', '3']) ++ [])) (.f64 x) ∧
    ((['.', '5', '0'] : List Char) ≠ [] ∨ ['E', '-', '3'] ≠ [] →
      toyFloat.parse64 (['-'] ++ ['1', '2'] ++ ['.', '5', '0'] ++ ['E', '-', '3']) = some x) := by
  refine (fun h => h) (C36_json_reads_rfc8259_numbers toyFloat_laws _ _ _ _ _ _ .nil (.inl .nil)
    ⟨.inr rfl, .inr ⟨'1', ['2'], rfl, ?_, by decide, ?_⟩, .inr ⟨['5', '0'], rfl, by decide, ?_⟩,
      .inr ⟨'E', ['-'], ['3'], rfl, .inr rfl, .inr (.inl rfl), by decide, ?_⟩⟩ ?_ (by simp) |>.imp fun _ h => ⟨h.1, h.2.2.1⟩)
  · unfold Rfc.Digit; decide
  · unfold Rfc.Digit; decide
  · unfold Rfc.Digit; decide
  · unfold Rfc.Digit; decide
  · rintro ⟨e, x, h⟩
    simp at h
/-- `1e+5` is rejected. -/
example : Rejects (fun n => deserializeJson exJEnv toyFloat n .f64 ([] ++ (([] ++ ['1'] ++ [] ++ 'e' :: '+' :: ['5']) ++ []))) :=
  C36_json_plus_exponent_rejected toyFloat_laws _ _ _ _ _ _ _ _ .nil
    ⟨.inl rfl, .inr ⟨'1', [], rfl, by unfold Rfc.Digit; decide, by decide, by simp⟩, .inl rfl,
      .inr ⟨'e', ['+'], ['5'], rfl, .inl rfl, .inr (.inr rfl), by decide, by unfold Rfc.Digit; decide⟩⟩

end NS
