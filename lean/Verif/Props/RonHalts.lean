import Verif.Lemmas.RonEnds
import Verif.Lemmas.RonLayoutX
import Verif.Props.RonObjects
import Verif.Props.JsonHalts
/-! # Properties C44–C46: RON error positions, termination, lexical edge cases -/
namespace NS
variable {env : Env} {fl : FloatOps}

/-! ## C44 -/

/-- Equal cursors with correct lines and column 0. -/
def linePosRel (input : List Char) : CurRel rcol where
  Q c c' := c' = c ∧ LineOk input c ∧ c.col = 0
  txt h := by rw [h.1]
  next {c c'} h := by
    refine ⟨by rw [h.1], h.2.1.next rcol, ?_⟩
    obtain ⟨_, _, h⟩ := h
    obtain ⟨txt, l, q⟩ := c
    simp only at h
    subst h
    match txt with
    | [] => rfl
    | [x] => rfl
    | x :: y :: t => by_cases hy : y = '\n' <;> simp [Cur.next, hy, rcol]

theorem deserializeRon_pos (n : Nat) (t : Ty) (input : List Char) :
    OutRel ((linePosRel input).sim True) (deserializeRon env fl n t input) (deserializeRon env fl n t input) := by
  refine Rel.bind ((linePosRel input).rNext fl) (fun _ => deRon_rel env fl ((linePosRel input).rNext fl) n n t (Nat.le_refl _) (.inl trivial)) _ _ ?_
  refine ⟨⟨rfl, ⟨[], by simp [initSt], ?_⟩, ?_⟩, rfl, rfl, rfl⟩
  · cases input with
    | nil => simp [initSt, Cur.next, newlines]
    | cons x t => by_cases hx : x = '\n' <;> simp [initSt, Cur.next, hx, newlines]
  · cases input with
    | nil => simp [initSt, Cur.next]
    | cons x t => by_cases hx : x = '\n' <;> simp [initSt, Cur.next, hx, rcol]

/-- **C44** (the line): the line of an error is
the number of newlines in some initial part `rd` of the input. -/
theorem C44_ron_error_line {n : Nat} {t : Ty} {input : List Char} {e s}
    (he : deserializeRon env fl n t input = .err e s) :
    ∃ rd rest, input = rd ++ rest ∧ e.line = newlines rd := by
  have h := deserializeRon_pos (env := env) (fl := fl) n t input
  rw [he] at h
  rcases h with h | h
  · exact h.elim
  obtain ⟨⟨_, c, _, ⟨_, ⟨pre, h1, h2⟩, _⟩, h4, h5, _⟩, _⟩ := h
  refine ⟨pre ++ c.txt.take 1, c.txt.drop 1, ?_, by rw [h4, h2]⟩
  rw [List.append_assoc, List.take_append_drop]; exact h1

/-- **C44** (the line, exactly): in a program without built-in tuples, `rd` is everything read when the
error was detected, up to and including the current character. -/
theorem C44_ron_error_line_exact (h : NoTuples env) {t : Ty} (ht : noTuple t = true) {n : Nat} {input : List Char}
    {e s} (he : deserializeRon env fl n t input = .err e s) :
    ∃ rd, input = rd ++ s.cur.txt.drop 1 ∧ e.line = newlines rd := by
  have hx := deserializeRon_exact h ht he
  have h := deserializeRon_pos (env := env) (fl := fl) n t input
  rw [he] at h
  rcases h with h | h
  · exact h.elim
  obtain ⟨_, ⟨_, ⟨pre, h1, h2⟩, _⟩, _⟩ := h
  refine ⟨pre ++ s.cur.txt.take 1, ?_, by rw [hx.1, h2]⟩
  rw [List.append_assoc, List.take_append_drop]; exact h1

/-- **C44** (the column): every error reports column 0 (`src/serde_ron.rs:196-201` resets the
column on every character). -/
theorem C44_ron_column_zero {n : Nat} {t : Ty} {input : List Char} {e s}
    (he : deserializeRon env fl n t input = .err e s) : e.col = 0 := by
  have h := deserializeRon_pos (env := env) (fl := fl) n t input
  rw [he] at h
  rcases h with h | h
  · exact h.elim
  obtain ⟨⟨_, c, _, ⟨_, _, h0⟩, h4, h5, _⟩, _⟩ := h
  rw [h5, h0]

/-- C44: in `[1,⏎ 2 x]` the word `x` is unexpected: line 1, reported column 0 instead of 5. -/
example : ∃ e s, deserializeRon exJEnv toyFloat 9 (.vec (.int .u8)) (chars "[1,\n 2 x]") = .err e s ∧ e.line = 1 ∧
    e.col = 0 ∧ s.cur.txt = [']'] ∧ sinceNewline (chars "[1,\n 2 x") = 4 := by
  obtain ⟨e, s, h, g⟩ := Out.errSat_spec (o := deserializeRon exJEnv toyFloat 9 (.vec (.int .u8)) (chars "[1,\n 2 x]"))
    (f := fun e s => e.line == 1 && e.col == 0 && s.cur.txt == [']']) (by decide +kernel)
  simp only [Bool.and_eq_true, beq_iff_eq] at g
  exact ⟨e, s, h, g.1.1, g.1.2, g.2, by decide⟩

/-! ## C45 -/

/-- **C45**: on every text every RON reader returns. -/
theorem C45_ron_terminates (hw : ProgWf env) (hnp : env.proxies = []) {t : Ty} (ht : TyWf env t) (txt : List Char) :
    ∃ r, Returns (fun n => deserializeRon env fl n t txt) r ∧ r ≠ .oof := by
  obtain ⟨N, o, h1, _, h3⟩ := ron_outcome (fl := fl) hw hnp t ht txt (D := True) (.inl trivial)
  exact ⟨o, ⟨N, h1⟩, h3⟩

/-- **C45** (no panic): on every text every RON reader returns `Ok` or
`Err`, unless the program uses `Duration` or `SystemTime` and the text contains a run of digits of value
`2^63 - 1` or more. -/
theorem C45_ron_ok_or_err (hw : ProgWf env) (hnp : env.proxies = []) {t : Ty} (ht : TyWf env t) (txt : List Char)
    (h : ¬ HugeDigits txt ∨ NoTime env ∧ noTime t = true) :
    (∃ v, Decodes (fun n => deserializeRon env fl n t txt) v) ∨ Rejects (fun n => deserializeRon env fl n t txt) := by
  obtain ⟨N, o, h1, h2, h3⟩ := ron_outcome (fl := fl) hw hnp t ht txt (D := ¬ HugeDigits txt) h
  cases o with
  | ok v s => exact .inl ⟨v, N, fun n hn => ⟨s, h1 n hn⟩⟩
  | err e s => exact .inr ⟨N, fun n hn => ⟨e, s, h1 n hn⟩⟩
  | panic =>
    obtain ⟨a, b⟩ := h2 rfl
    exact absurd b a
  | oof => exact absurd rfl h3

/-- **C45** (the exception): a `SystemTime` of `2^63` seconds, and a `Duration` of `u64::MAX` seconds and
`10^9` nanoseconds, panic. -/
theorem C45_ron_panics :
    Panics (fun n => deserializeRon exJEnv toyFloat n .time (chars "{\"secs\":9223372036854775808,\"nanos\":0}")) ∧
    Panics (fun n => deserializeRon exJEnv toyFloat n .dur (chars "{\"secs\":18446744073709551615,\"nanos\":1000000000}")) :=
  ⟨ron_panic 9 (by decide +kernel), ron_panic 9 (by decide +kernel)⟩

/-- C45: `P` of `exNoNamed` (which contains a `Duration`) is read or rejected on the text `( 7 , [ ] )`. -/
example : (∃ v, Decodes (fun n => deserializeRon exNoNamed toyFloat n (.named 0) (chars "( 7 , [ ] )")) v) ∨
    Rejects (fun n => deserializeRon exNoNamed toyFloat n (.named 0) (chars "( 7 , [ ] )")) := by
  refine C45_ron_ok_or_err exNoNamed_wf rfl (by show (0 : Nat) < 2; decide) _ (.inl ?_)
  rintro ⟨a, ds, b, h1, h2, h3⟩
  have hin : ∀ c ∈ ds, c ∈ chars "( 7 , [ ] )" := by intro c hc; rw [h1]; simp [hc]
  have h7 : ∀ c ∈ ds, c = '7' := by
    intro c hc
    have g1 := hin c hc
    have g2 := h2 c hc
    simp [chars] at g1
    rcases g1 with rfl | rfl | rfl | rfl | rfl | rfl | rfl | rfl | rfl | rfl | rfl <;> first | rfl | (exact absurd g2 (by decide))
  have hlen : ds.length ≤ 11 := by
    have := congrArg List.length h1
    have e : (chars "( 7 , [ ] )").length = 11 := by decide
    simp [e] at this
    omega
  have : ds = List.replicate ds.length '7' := List.eq_replicate_iff.2 ⟨rfl, h7⟩
  rw [this] at h3
  generalize ds.length = m at *
  have : ∀ m ≤ 11, decimal (List.replicate m '7') + 1 < 2 ^ 63 := by decide
  have := this m hlen
  omega

/-! ## C46 -/

/-- **C46** (what is dropped): in any text made of lexemes, character literals between the lexemes and a block
comment that is never closed are treated like white space: the result is that of the text `txt'` with the
same lexemes in ordinary layout. -/
theorem C46_ron_char_literals_ignored {ls : List Lexeme} {txt txt' : List Char} (h : RFullX fl ls txt)
    (h' : RFull fl ls txt') (t : Ty) :
    SameResult (fun n => deserializeRon env fl n t txt) (fun n => deserializeRon env fl n t txt') :=
  ron_layoutX ⟨ls, h, h'.toX⟩ t

/-- C46: `'a' 5 /* x` and `5` are the same number. -/
example : Decodes (fun n => deserializeRon exJEnv toyFloat n (.int .u8) (chars "'a' 5 /* x")) (.int 5) := by
  refine ((C46_ron_char_literals_ignored (ls := [.num (.nat 5)]) (txt' := chars " 5") ⟨chars " /* x", ?_, ?_⟩ ?_ (.int .u8)).1 _).2 ?_
  · refine .inr ⟨chars " ", chars " x", (Layout.space (.inl rfl) .nil).toX, rfl, by decide, by decide⟩
  · refine .cons (w := chars "'a' ") (s := chars "5") (.char (by decide) (Layout.space (.inl rfl) .nil).toX) ?_ ?_ .nil
    · exact .num (NumLit.nat (sg := []) (ds := ['5']) (.inl rfl) (by decide) (by intro c hc; simp at hc; subst hc; decide) (by decide))
    · intro c hc
      have e : some ' ' = some c := hc
      have : c = ' ' := by injection e with e; exact e.symm
      subst this; decide
  · have := rtext_spaced (fl := toyFloat) (x := .num (.nat 5)) (txt := chars " 5") [.num (.nat 5)] (by simp [RTree.lexemes]) (by decide)
    simpa [RText, RTree.lexemes] using this
  · exact ron_ok 9 _ (by decide +kernel)

/-- **C46** (what is not): at the first token of a text, a quotation mark that does not begin a string literal, a slash that does
not begin a comment, a character literal that is not closed, and a character that begins no token, are
errors at every type. -/
theorem C46_ron_lexical_errors (w txt : List Char) (hw : Layout w) (t : Ty)
    (h : (∃ b, txt = '"' :: b ∧ ¬ ∃ lit s r, StrLit lit s ∧ b = lit ++ '"' :: r) ∨
      (∃ c r, txt = '/' :: c :: r ∧ c ≠ '/' ∧ c ≠ '*') ∨
      (∃ c d r, txt = '\'' :: c :: d :: r ∧ c ≠ '\\' ∧ d ≠ '\'') ∨
      (∃ c r, txt = c :: r ∧ c ∈ ['@', '#', '$', '%', '^', '&', '*', '=', '|', '\\', ';', '<', '>', '?', '!', '~', '`'])) :
    Rejects (fun n => deserializeRon env fl n t (w ++ txt)) := by
  refine Ron.rejects_first hw fun st hst => ?_
  rcases h with ⟨b, rfl, hb⟩ | ⟨c, r, rfl, h1, h2⟩ | ⟨c, d, r, rfl, h1, h2⟩ | ⟨c, r, rfl, h1⟩
  · rw [Ron.next_start hst (by decide) (by decide) (by decide)]
    have e := Cur.ch_cons hst
    have e1 : ('"' : Char) ≠ '\x00' := by decide
    have e2 : ¬ (('"' : Char) = '.' ∨ ('"' : Char) = '-' ∨ ('"' : Char) = '+' ∨ isDig '"' = true) := by decide
    have e3 : ¬ (isIdStart '"' = true) := by decide
    have e4 : rPunct '"' = none := by decide
    simp only [rTok, e, if_neg e1, if_neg e2, e4, if_neg e3, if_true]
    cases hl : lexStr rcol (st.cur.txt.length + 1) (st.cur.next rcol) [] with
    | done c' buf => 
      obtain ⟨l, s, g1, g2, _⟩ := lexStr_sound _ hl
      exact absurd ⟨l, s, c'.txt, g2, by rw [← g1]; simp [hst]⟩ hb
    | bad c' buf => exact ⟨_, _, rfl⟩
    | oof => exact absurd hl (lexStr_fuel rcol (m := st.cur.txt.length + 1) [] (by simp; omega) (by simp; omega)).2
  · have e := Cur.ch_cons hst
    have e1 : (st.cur.next rcol).ch = c := Cur.ch_cons (t := r) (by simp [hst])
    rw [Ron.next_eq fl st (st.cur.txt.length + 1) (by omega), Ron.skip_slash hst, e1, if_neg h1, if_neg h2]
    exact ⟨_, _, rfl⟩
  · have hs : (st.cur.span rcol isWs).2 = st.cur := by
      rw [Cur.span_stop]; intro y r e; rw [hst] at e; injection e with e1; rw [← e1]; decide
    have e0 := Cur.ch_cons hst
    have k1 : (st.cur.next rcol).txt = c :: d :: r := by simp [hst]
    have k2 : ((st.cur.next rcol).next rcol).txt = d :: r := by rw [Cur.next_txt, k1]; rfl
    have e1 : ('\'' : Char) ≠ '/' := by decide
    rw [Ron.next_eq fl st (st.cur.txt.length + 1) (by omega), rSkip]
    simp only [hs, e0, if_neg e1, if_true, Cur.ch_cons k1, if_neg h1, Cur.ch_cons k2, ne_eq, h2, not_false_eq_true]
    exact ⟨_, _, rfl⟩
  · have hc : isWs c = false ∧ c ≠ '/' ∧ c ≠ '\'' ∧ c ≠ '\x00' ∧ rPunct c = none ∧
      ¬ (c = '.' ∨ c = '-' ∨ c = '+' ∨ isDig c = true) ∧ ¬ (isIdStart c = true) ∧ c ≠ '"' := by
      clear hst; revert c; decide
    rw [Ron.next_start hst hc.1 hc.2.1 hc.2.2.1]
    have e := Cur.ch_cons hst
    simp only [rTok, e, if_neg hc.2.2.2.1, hc.2.2.2.2.1, if_neg hc.2.2.2.2.2.1, if_neg hc.2.2.2.2.2.2.1, if_neg hc.2.2.2.2.2.2.2]
    exact ⟨_, _, rfl⟩

/-- C46: `"a` is an error at every type. -/
example (t : Ty) : Rejects (fun n => deserializeRon exJEnv toyFloat n t (chars " " ++ chars "\"a")) :=
  C46_ron_lexical_errors _ _ (.space (.inl rfl) .nil) t (.inl ⟨chars "a", rfl, by
    rintro ⟨l, s, r, _, h⟩
    have : '"' ∈ chars "a" := by rw [h]; simp
    revert this; decide⟩)

end NS
