import Verif.Lemmas.RonLayout
import Verif.Lemmas.RonRead2
import Verif.Lemmas.RonMembers
import Verif.Props.JsonNumbers
import Verif.Props.RonObjects
/-! # Property C47: RON integers and booleans -/
namespace NS
variable {env : Env} {fl : FloatOps}

namespace Ron

/-- If reading fails at the first token of a text, the text is rejected. -/
theorem rejects_at {t : Ty} {x : RTree} {txt} (hx : RText fl x txt) {l ls} (hl : x.lexemes = l :: ls)
    (h : ∀ n, ∀ st : PSt, st.tok = rtok l → ∃ e s, deRon env fl (n + 1) t st = .err e s) :
    Rejects (fun n => deserializeRon env fl n t txt) := by
  obtain ⟨s1, e1, h1⟩ := full_start hx
  rw [hl] at h1
  refine ⟨1, fun n hn => ?_⟩
  obtain ⟨m, rfl⟩ : ∃ m, n = m + 1 := ⟨n - 1, by omega⟩
  obtain ⟨e, s, h2⟩ := h m s1 h1.tok
  refine ⟨e, s, ?_⟩
  show (rNext fl >>= fun _ => deRon env fl (m + 1) t : PM Val) (initSt rcol txt) = _
  rw [M.bind_ok e1]; exact h2

/-- The literal `t` is refused at the integer type `k`. -/
def Refuses (k : IntKind) (t : Num) : Prop :=
  match t with
  | .float _ => True
  | .nat n => if k.signed then u64AsI64 n > k.hi else (n : Int) > k.hi
  | .neg i => if k.signed then i < k.lo else True

theorem deInt_refuses {k : IntKind} (hk : k.textual = true) {st : PSt}
    (h : (∃ t, st.tok = t.tok ∧ Refuses k t) ∨ ∀ t : Num, st.tok ≠ t.tok) :
    ∃ e s, deInt (rNext fl) k st = .err e s := by
  have h0 := k.hi_nonneg
  unfold deInt
  rw [if_neg (by simp [hk])]
  cases hs : k.signed with
  | true =>
    rw [if_pos rfl]
    obtain ⟨e, s, he⟩ : ∃ e s, i64Range k.lo k.hi st = .err e s := by
      show ∃ e s, ((match st.tok with
        | .i64 v => if v < k.lo then errRange (showInt v ++ '<' :: showInt k.lo) else Pure.pure v
        | .u64 v =>
          if u64AsI64 v > k.hi then errRange (showNat v ++ '>' :: showInt k.hi) else Pure.pure (u64AsI64 v)
        | _ => errToken "signed integer") : PM Int) st = .err e s
      rcases h with ⟨t, ht, hr⟩ | h
      · rw [ht]
        cases t with
        | float x => exact ⟨_, _, rfl⟩
        | neg j => simp only [Num.tok, Refuses, hs, if_true] at hr ⊢; rw [if_pos hr]; exact ⟨_, _, rfl⟩
        | nat j => simp only [Num.tok, Refuses, hs, if_true] at hr ⊢; rw [if_pos hr]; exact ⟨_, _, rfl⟩
      · generalize st.tok = tk at h
        cases tk with
        | i64 v => exact absurd rfl (h (.neg v))
        | u64 v => exact absurd rfl (h (.nat v))
        | _ => exact ⟨_, _, rfl⟩
    exact ⟨e, s, M.bind_err he⟩
  | false =>
    rw [if_neg (by simp)]
    obtain ⟨e, s, he⟩ : ∃ e s, u64Range k.hi.toNat st = .err e s := by
      show ∃ e s, ((match st.tok with
        | .u64 v => if v > k.hi.toNat then errRange (showNat v ++ '>' :: showNat k.hi.toNat) else Pure.pure v
        | _ => errToken "unsigned integer") : PM Nat) st = .err e s
      rcases h with ⟨t, ht, hr⟩ | h
      · rw [ht]
        cases t with
        | float x => exact ⟨_, _, rfl⟩
        | neg j => exact ⟨_, _, rfl⟩
        | nat j =>
          simp only [Num.tok, Refuses, hs] at hr ⊢
          rw [if_pos (by simp at hr; omega)]; exact ⟨_, _, rfl⟩
      · generalize st.tok = tk at h
        cases tk with
        | u64 v => exact absurd rfl (h (.nat v))
        | _ => exact ⟨_, _, rfl⟩
    exact ⟨e, s, M.bind_err he⟩

theorem int_refused {k : IntKind} (hk : k.textual = true) {t : Num} (h : Refuses k t) {txt}
    (hx : RText fl (.num t) txt) : Rejects (fun n => deserializeRon env fl n (.int k) txt) :=
  rejects_at hx (l := .num t) (ls := []) (by simp [RTree.lexemes])
    fun n st ht => by rw [deRon]; exact deInt_refuses hk (.inl ⟨t, ht, h⟩)

end Ron

/-! ## Integers -/

/-- **C47**, unsigned types: a decimal numeral (any number of digits, leading zeros, optional `+`) in
any layout is read as exactly its value if that fits, and is an error otherwise. -/
theorem C47_ron_unsigned_range (k : IntKind) (hk : k.textual = true) (hs : k.signed = false)
    (w sg ds w' : List Char) (hw : Layout w) (hsg : sg = [] ∨ sg = ['+']) (hne : ds ≠ []) (hds : Digits ds)
    (hw' : LayoutEnd w') :
    ((decimal ds : Int) ≤ k.hi →
      Decodes (fun n => deserializeRon env fl n (.int k) (w ++ (sg ++ ds) ++ w')) (.int (decimal ds))) ∧
    (k.hi < (decimal ds : Int) →
      Rejects (fun n => deserializeRon env fl n (.int k) (w ++ (sg ++ ds) ++ w'))) := by
  have hhi := IntKind.hi_le_u64 hk
  have h0 := k.hi_nonneg
  constructor
  · intro h
    refine ron_reads_scalar (.inr ⟨_, rfl⟩) (Ron.num_text hw (.nat hsg hne hds (by omega)) hw')
      (.int hk rfl ⟨by rw [IntKind.lo_unsigned hs]; omega, h⟩ fun _ => ⟨_, rfl⟩)
  · intro h
    by_cases hu : decimal ds ≤ u64Max
    · refine Ron.int_refused hk ?_ (Ron.num_text hw (.nat hsg hne hds hu) hw')
      simp only [Ron.Refuses, hs]; simpa using h
    · rw [List.append_assoc]
      refine Ron.rejects_first hw (Ron.badInt_first (by rcases hsg with h | h <;> simp [h]) hne hds hw'.stopNum ?_)
      rcases hsg with rfl | rfl <;> simp <;> omega

/-- **C47**, unsigned types: a numeral with a minus sign is an error, even `-0`. -/
theorem C47_ron_unsigned_minus (k : IntKind) (hk : k.textual = true) (hs : k.signed = false)
    (w ds w' : List Char) (hw : Layout w) (hne : ds ≠ []) (hds : Digits ds) (hw' : LayoutEnd w') :
    Rejects (fun n => deserializeRon env fl n (.int k) (w ++ (['-'] ++ ds) ++ w')) := by
  by_cases h63 : decimal ds ≤ 2 ^ 63
  · exact Ron.int_refused hk (by simp [Ron.Refuses, hs]) (Ron.num_text hw (NumLit.neg hne hds h63) hw')
  · rw [List.append_assoc]
    refine Ron.rejects_first hw (Ron.badInt_first (.inr (.inl rfl)) hne hds hw'.stopNum ?_)
    simp; omega

/-- **C47**, signed types, for every numeral outside `[2^63, 2^64)` (for those see
`C47_ron_signed_wraps`): the value if it fits the type, an error otherwise. -/
theorem C47_ron_signed_range (k : IntKind) (hk : k.textual = true) (hs : k.signed = true)
    (w sg ds w' : List Char) (hw : Layout w) (hsg : sg = [] ∨ sg = ['-'] ∨ sg = ['+']) (hne : ds ≠ [])
    (hds : Digits ds) (hw' : LayoutEnd w')
    (hno : ¬ (2 ^ 63 ≤ signedDecimal sg ds ∧ signedDecimal sg ds < 2 ^ 64)) :
    (k.inRange (signedDecimal sg ds) →
      Decodes (fun n => deserializeRon env fl n (.int k) (w ++ (sg ++ ds) ++ w')) (.int (signedDecimal sg ds))) ∧
    (¬ k.inRange (signedDecimal sg ds) →
      Rejects (fun n => deserializeRon env fl n (.int k) (w ++ (sg ++ ds) ++ w'))) := by
  have hb : -(2 ^ 63 : Int) ≤ k.lo ∧ k.hi < 2 ^ 63 ∧ k.lo ≤ 0 := by
    cases k <;> simp [IntKind.textual] at hk <;> simp [IntKind.signed] at hs <;> decide
  have h0 := k.hi_nonneg
  have hu : (u64Max : Int) = 2 ^ 64 - 1 := by decide
  by_cases hm : sg = ['-']
  · subst hm
    simp only [signedDecimal, if_true] at *
    have hlit : decimal ds ≤ 2 ^ 63 → NumLit fl (['-'] ++ ds) (.neg (-(decimal ds : Int))) :=
      fun h => .neg hne hds h
    constructor
    · intro h
      exact ron_reads_scalar (.inr ⟨_, rfl⟩) (Ron.num_text hw (hlit (by have := h.1; omega)) hw') (.int hk rfl h (by simp [hs]))
    · intro h
      by_cases h63 : decimal ds ≤ 2 ^ 63
      · refine Ron.int_refused hk ?_ (Ron.num_text hw (hlit h63) hw')
        simp only [Ron.Refuses, hs, if_true]
        unfold IntKind.inRange at h
        omega
      · rw [List.append_assoc]
        refine Ron.rejects_first hw (Ron.badInt_first (.inr (.inl rfl)) hne hds hw'.stopNum ?_)
        simp; omega
  · have hsg' : sg = [] ∨ sg = ['+'] := by
      rcases hsg with h | h | h
      · exact .inl h
      · exact absurd h hm
      · exact .inr h
    have hsd : signedDecimal sg ds = decimal ds := by simp [signedDecimal, hm]
    rw [hsd]
    rw [hsd] at hno
    have hlit : decimal ds ≤ u64Max → NumLit fl (sg ++ ds) (.nat (decimal ds)) :=
      fun h => .nat hsg' hne hds h
    constructor
    · intro h
      have h2 := h.2
      exact ron_reads_scalar (.inr ⟨_, rfl⟩) (Ron.num_text hw (hlit (by omega)) hw') (.int hk rfl h (by simp [hs]))
    · intro h
      by_cases h63 : decimal ds < 2 ^ 63
      · refine Ron.int_refused hk ?_ (Ron.num_text hw (hlit (by omega)) hw')
        have hc : u64AsI64 (decimal ds) = decimal ds := if_pos (by omega)
        simp only [Ron.Refuses, hs, hc, if_true]
        unfold IntKind.inRange at h
        omega
      · rw [List.append_assoc]
        refine Ron.rejects_first hw (Ron.badInt_first hsg hne hds hw'.stopNum ?_)
        rw [if_neg hm]
        omega

/-- **C47** (the exception): every numeral from `2^63` up to `2^64 - 1` is accepted at every signed type,
although no signed type holds it; the value read agrees with it modulo the size of the type
(`src/serde_ron.rs:394-397`, `value as i64`, then `as i8` etc.). -/
theorem C47_ron_signed_wraps (k : IntKind) (hk : k.textual = true) (hs : k.signed = true)
    (w sg ds w' : List Char) (hw : Layout w) (hsg : sg = [] ∨ sg = ['+']) (hne : ds ≠ [])
    (hds : Digits ds) (hw' : LayoutEnd w') (h1 : 2 ^ 63 ≤ decimal ds) (h2 : decimal ds < 2 ^ 64) :
    ¬ k.inRange (decimal ds) ∧ ∃ i, i % 2 ^ (8 * k.bytes) = (decimal ds : Int) % 2 ^ (8 * k.bytes) ∧
      Decodes (fun n => deserializeRon env fl n (.int k) (w ++ (sg ++ ds) ++ w')) (.int i) := by
  have h0 := k.hi_nonneg
  have hu : (u64Max : Int) = 2 ^ 64 - 1 := by decide
  have hb : k.hi < 2 ^ 63 := by
    cases k <;> simp [IntKind.textual] at hk <;> simp [IntKind.signed] at hs <;> decide
  have he : u64AsI64 (decimal ds) = (decimal ds : Int) - 2 ^ 64 := by
    rw [u64AsI64, if_neg (by omega)]
  refine ⟨fun h => by have := h.2; omega, castInt k (u64AsI64 (decimal ds)), ?_, ?_⟩
  · rw [he]
    generalize (decimal ds : Int) = v
    cases k <;> simp [IntKind.textual] at hk <;> simp [IntKind.signed] at hs <;>
      simp only [castInt, IntKind.signed, IntKind.bytes, ofTwos, toTwos] <;> split <;> omega
  · obtain ⟨s1, e1, hp⟩ := Ron.full_start (Ron.num_text (fl := fl) hw (NumLit.nat hsg hne hds (by omega)) hw')
    simp only [RTree.lexemes, List.cons_append, List.nil_append] at hp
    obtain ⟨s2, e2, _⟩ := hp.next' (by simp)
    refine ⟨1, fun n hn => ?_⟩
    obtain ⟨m, rfl⟩ : ∃ m, n = m + 1 := ⟨n - 1, by omega⟩
    refine ⟨s2, ?_⟩
    show (rNext fl >>= fun _ => deRon env fl (m + 1) (.int k) : PM Val) (initSt rcol _) = _
    rw [M.bind_ok e1]
    simp only [deRon, deInt]
    rw [if_neg (by simp [hk]), if_pos hs]
    have htok : s1.tok = .u64 (decimal ds) := hp.tok
    have hr : i64Range k.lo k.hi s1 = .ok (u64AsI64 (decimal ds)) s1 := by
      show ((match s1.tok with
        | .i64 v => if v < k.lo then errRange (showInt v ++ '<' :: showInt k.lo) else Pure.pure v
        | .u64 v =>
          if u64AsI64 v > k.hi then errRange (showNat v ++ '>' :: showInt k.hi) else Pure.pure (u64AsI64 v)
        | _ => errToken "signed integer") : PM Int) s1 = _
      rw [htok]
      simp only
      rw [if_neg (by omega)]; rfl
    rw [M.bind_ok hr, M.bind_ok e2]; rfl

/-- **C47**: nothing but an integer literal is accepted at an integer type. -/
theorem C47_ron_int_only_numerals (k : IntKind) (hk : k.textual = true) (x : RTree) (txt : List Char) (hx : RText fl x txt)
    (h : ∀ i : Int, ∀ t, x = .num t → t.intVal ≠ some i) :
    Rejects (fun n => deserializeRon env fl n (.int k) txt) := by
  obtain ⟨l, ls, el, hl⟩ := Ron.start x
  refine Ron.rejects_at hx el fun n st ht => ?_
  rw [deRon]
  refine Ron.deInt_refuses hk ?_
  by_cases hn : ∃ t, x = .num t
  · obtain ⟨t, rfl⟩ := hn
    simp only [RTree.lexemes, List.cons.injEq] at el
    obtain ⟨rfl, _⟩ := el
    refine .inl ⟨t, ht, ?_⟩
    cases t with
    | float => trivial
    | nat n => exact absurd rfl (h n _ rfl)
    | neg n => exact absurd rfl (h n _ rfl)
  · refine .inr fun t e => ?_
    rw [ht] at e
    rcases hl with ⟨w, rfl⟩ | ⟨t', rfl⟩ | ⟨s, rfl⟩ | rfl | rfl | rfl
    · simp only [rtok] at e
      cases t <;> simp only [Num.tok] at e <;> repeat (first | cases e | split at e)
    · cases x <;> simp [RTree.lexemes] at el hn
    · cases t <;> cases e
    · cases t <;> cases e
    · cases t <;> cases e
    · cases t <;> cases e

/-! ## Booleans -/

/-- **C47**, booleans: a text of a value is accepted exactly if the value is `true`, `false` or an
unsigned numeral; `0` is false and every other numeral true. -/
theorem C47_ron_bool (x : RTree) (txt : List Char) (hx : RText fl x txt) :
    (x = .word (chars "true") → Decodes (fun n => deserializeRon env fl n .bool txt) (.bool true)) ∧
    (x = .word (chars "false") → Decodes (fun n => deserializeRon env fl n .bool txt) (.bool false)) ∧
    (∀ i, x = .num (.nat i) → Decodes (fun n => deserializeRon env fl n .bool txt) (.bool (decide (i ≠ 0)))) ∧
    (x ≠ .word (chars "true") → x ≠ .word (chars "false") → (∀ i, x ≠ .num (.nat i)) →
      ((∀ b, x ≠ .ctor (chars "true") b) ∧ (∀ b, x ≠ .ctor (chars "false") b)) →
      Rejects (fun n => deserializeRon env fl n .bool txt)) := by
  refine ⟨?_, ?_, ?_, ?_⟩
  · rintro rfl; exact ron_reads_scalar (.inl rfl) hx .true
  · rintro rfl; exact ron_reads_scalar (.inl rfl) hx .false
  · rintro i rfl
    have : (decide (i ≠ 0)) = (i != 0) := by by_cases h : i = 0 <;> simp [h]
    rw [this]
    exact ron_reads_scalar (.inl rfl) hx .boolNum
  · intro h1 h2 h3 h4
    obtain ⟨l, ls, el, hl⟩ := Ron.start x
    refine Ron.rejects_at hx el fun n st ht => ?_
    rw [deRon]
    have key : (∀ b, rtok l ≠ .bool b) ∧ (∀ i, rtok l ≠ .u64 i) := by
      rcases hl with ⟨w, rfl⟩ | ⟨t', rfl⟩ | ⟨s, rfl⟩ | rfl | rfl | rfl
      · have hw : w ≠ chars "true" ∧ w ≠ chars "false" := by
          cases x with
          | word w' =>
            simp [RTree.lexemes] at el
            rw [← el.1]
            exact ⟨fun e => h1 (by rw [e]), fun e => h2 (by rw [e])⟩
          | ctor w' b =>
            simp [RTree.lexemes] at el
            rw [← el.1]
            exact ⟨fun e => h4.1 b (by rw [e]), fun e => h4.2 b (by rw [e])⟩
          | _ => simp [RTree.lexemes] at el
        have e1 : w ≠ ['t', 'r', 'u', 'e'] := hw.1
        have e2 : w ≠ ['f', 'a', 'l', 's', 'e'] := hw.2
        simp [rtok, e1, e2]
      · cases x with
        | num t =>
          simp [RTree.lexemes] at el
          rw [← el.1]
          cases t with
          | nat i => exact absurd rfl (h3 i)
          | _ => simp [rtok, Num.tok]
        | _ => simp [RTree.lexemes] at el
      all_goals simp [rtok]
    show ∃ e s, ((match st.tok with
      | .bool b => do
        rNext fl
        pure (.bool b)
      | .u64 v => do
        rNext fl
        pure (.bool (v != 0))
      | _ => errToken "boolean") : PM Val) st = .err e s
    rw [ht]
    generalize rtok l = tk at key
    cases tk with
    | bool b => exact absurd rfl (key.1 b)
    | u64 v => exact absurd rfl (key.2 v)
    | _ => exact ⟨_, _, rfl⟩

/-! ## Examples -/

/-- ` +0255//x` as `u8`. -/
example : Decodes (fun n => deserializeRon exJEnv toyFloat n (.int .u8)
    (([' '] : List Char) ++ (['+'] ++ ['0', '2', '5', '5']) ++ ['/', '/', 'x'])) (.int 255) :=
  (C47_ron_unsigned_range .u8 rfl rfl [' '] ['+'] ['0', '2', '5', '5'] ['/', '/', 'x']
    (.space (.inl rfl) .nil) (.inr rfl) (by simp) (by unfold Digits; decide)
    (.inr ⟨[], ['x'], .nil, by decide, by decide, rfl⟩)).1 (by decide)

example : Rejects (fun n => deserializeRon exJEnv toyFloat n (.int .u8) ([] ++ ([] ++ ['2', '5', '6']) ++ [])) :=
  (C47_ron_unsigned_range .u8 rfl rfl [] [] ['2', '5', '6'] [] .nil (.inl rfl) (by simp)
    (by unfold Digits; decide) (.inl .nil)).2 (by decide)

example : Decodes (fun n => deserializeRon exJEnv toyFloat n (.int .i16)
    ([] ++ (['-'] ++ ['0', '3', '2', '7', '6', '8']) ++ [])) (.int (-32768)) :=
  (C47_ron_signed_range .i16 rfl rfl [] ['-'] ['0', '3', '2', '7', '6', '8'] [] .nil (.inr (.inl rfl))
    (by simp) (by unfold Digits; decide) (.inl .nil) (by decide)).1 (by decide)

/-- `18446744073709551615` as `i8`. -/
example : ¬ IntKind.i8.inRange (decimal "18446744073709551615".toList) ∧ ∃ i,
    i % 2 ^ (8 * IntKind.i8.bytes) = (decimal "18446744073709551615".toList : Int) % 2 ^ (8 * IntKind.i8.bytes) ∧
    Decodes (fun n => deserializeRon exJEnv toyFloat n (.int .i8) ([] ++ ([] ++ "18446744073709551615".toList) ++ []))
      (.int i) :=
  C47_ron_signed_wraps .i8 rfl rfl [] [] _ [] .nil (.inl rfl) (by decide) (by unfold Digits; decide)
    (.inl .nil) (by decide) (by decide)

/-- `( 7 )` is no integer and no boolean. -/
example : Rejects (fun n => deserializeRon exJEnv toyFloat n (.int .u8) (chars " ( 7 )")) ∧
    Rejects (fun n => deserializeRon exJEnv toyFloat n .bool (chars " ( 7 )")) := by
  have h : RText toyFloat (.tuple [.num (.nat 7)] false) (chars " ( 7 )") :=
    rtext_spaced [.punct .parenOpen, .num (.nat 7), .punct .parenClose] (by simp [RTree.lexemes, commaLexemes]) (by decide)
  exact ⟨C47_ron_int_only_numerals .u8 rfl _ _ h (by simp),
    (C47_ron_bool _ _ h).2.2.2 (by simp) (by simp) (by simp) (by simp)⟩

/-- ` 5` as a boolean. -/
example : Decodes (fun n => deserializeRon exJEnv toyFloat n .bool (chars " 5")) (.bool true) :=
  (C47_ron_bool _ _ (rtext_spaced (x := .num (.nat 5)) [.num (.nat 5)] (by simp [RTree.lexemes]) (by decide))).2.2.1 5 rfl

end NS
