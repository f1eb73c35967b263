import Verif.Lemmas.TomlPanic
/-! Errors of the TOML lexer where a value is expected. -/
namespace NS
variable {o : TomlOps}

/-- Reading some of the elements of an array. -/
theorem TElems.some {vs : List Toml} {ts : List TTok} (h : TElems o vs ts) :
    ∀ acc c c', Feeds o ts c c' → ∃ N k, ∀ n, N ≤ n → tVals o (n + k) acc c = tVals o n (acc ++ vs) c' := by
  refine TElems.rec (o := o) (motive_1 := fun v ts _ => True) (motive_2 := fun vs ts _ => ∀ acc c c', Feeds o ts c c' →
    ∃ N k, ∀ n, N ≤ n → tVals o (n + k) acc c = tVals o n (acc ++ vs) c')
    ?_ ?_ ?_ ?_ ?_ ?_ ?_ ?_ ?_ ?_ ?_ ?_ h
  any_goals (intros; trivial)
  · intro acc c c' hf
    cases hf
    exact ⟨0, 0, fun n _ => by simp⟩
  · intro vs ts _ ih acc c c' hf
    cases hf with
    | cons e hf =>
      obtain ⟨N, k, hN⟩ := ih acc _ _ hf
      refine ⟨N, k + 1, fun n hn => ?_⟩
      rw [← Nat.add_assoc, tVals, M.bind_ok e]
      simpa using hN n hn
  · intro v ts vs ts' hv _ _ ih acc c c' hf
    obtain ⟨t, ts1, rfl, n1, n2, n3, hv⟩ := hv.reads
    rw [List.cons_append] at hf
    cases hf with
    | cons e hf =>
      obtain ⟨c1, g1, g2⟩ := hf.split
      obtain ⟨N1, hN1⟩ := hv _ _ g1
      obtain ⟨N, k, hN⟩ := ih (acc ++ [v]) _ _ g2
      refine ⟨N + N1, k + 1, fun n hn => ?_⟩
      rw [← Nat.add_assoc, tVals, M.bind_ok e, if_neg (by simp [n2, n3]), if_pos n1, M.bind_ok (hN1 _ (by omega)),
        hN n (by omega)]
      simp

/-- An error in an incomplete value. -/
theorem TPart.fails {ts : List TTok} (h : TPart o ts) : ∀ {c c' s : Cur} {e : TErr}, Feeds o ts c c' →
    tNext o c' = .err e s → ∃ N, ∀ n, N ≤ n → (tNext o >>= fun t => tVal o n t : TM Toml) c = .err e s := by
  induction h with
  | nil =>
    intro c c' s e hf he
    cases hf
    exact ⟨0, fun n _ => M.bind_err he⟩
  | @«open» vs ts ts' hv hp ih =>
    intro c c' s e hf he
    cases hf with
    | cons e1 hf =>
      obtain ⟨c1, g1, g2⟩ := hf.split
      obtain ⟨N1, k, h1⟩ := hv.some [] _ _ g1
      obtain ⟨N2, h2⟩ := ih g2 he
      refine ⟨N1 + N2 + k + 2, fun n hn => ?_⟩
      rw [M.bind_ok e1]
      obtain ⟨m, rfl⟩ : ∃ m, n = m + 1 + k + 1 := ⟨n - k - 2, by omega⟩
      rw [tVal]
      refine M.bind_err ?_
      rw [h1 (m + 1) (by omega), tVals]
      -- the next token is not the end of the array
      have h3 := h2 m (by omega)
      cases hx : tNext o c1 with
      | err e' s' =>
        rw [M.bind_err hx] at h3
        rw [M.bind_err hx]
        injection h3 with a b
        rw [a, b]
      | panic => exact absurd hx (tNext_safe _)
      | oof =>
        have := (tNext_lands (o := o) c1).1
        rw [hx] at this
        exact this.elim
      | ok t c2 =>
        rw [M.bind_ok hx] at h3
        rw [M.bind_ok hx]
        by_cases hc : t = .blockClose ∨ t = .eof ∨ t = .comma
        · exfalso
          cases hp with
          | nil =>
            cases g2
            rw [he] at hx; cases hx
          | «open» _ _ =>
            cases g2 with
            | cons e2 _ =>
              rw [e2] at hx
              cases hx
              simp at hc
        · simp only [not_or] at hc
          rw [if_neg (by simp [hc.1, hc.2.1]), if_pos hc.2.2]
          exact M.bind_err h3

/-- A lexical error where a value is expected is the outcome of parsing. -/
theorem parse_bad {doc : List Stmt} {txt tail : List Char} (h : TUpTo o doc txt tail) (hc : ¬ Clashes doc)
    {msg : TMsg} (hbad : ∀ c : Cur, c.txt = tail → ∃ e s, tNext o c = .err e s ∧ e.msg = msg) :
    ∃ line col, TomlFails (fun n => parseToml o n txt) msg line col := by
  obtain ⟨ts, t, k, ts', h1, h2, h3, h4⟩ := h
  obtain ⟨c', hf, hc'⟩ := h4.feeds (tInit_txt txt)
  obtain ⟨c1, f1, f2⟩ := hf.split
  obtain ⟨e, s, he, hm⟩ := hbad c' hc'
  cases f2 with
  | cons e1 f2 =>
    cases f2 with
    | cons e2 f3 =>
      obtain ⟨N, hN⟩ := tLoop_doc h1 ⟨[], none, []⟩ f1
      obtain ⟨u, hu, -⟩ := (run_doc h1.plain).2 hc
      obtain ⟨N2, hN2⟩ := h3.fails f3 he
      refine ⟨e.line, e.col, N + N2 + doc.length + 1, fun n hn => ⟨s, ?_⟩⟩
      have g := hN (n - doc.length) (by omega)
      rw [hu, show n - doc.length + doc.length = n by omega] at g
      refine g.trans ?_
      simp only
      have hfin : (⟨msg, e.line, e.col⟩ : TErr) = e := by rw [← hm]
      rw [hfin]
      obtain ⟨m, hm'⟩ : ∃ m, n - doc.length = m + 1 := ⟨n - doc.length - 1, by omega⟩
      rw [hm', tLoop]
      refine M.bind_err ?_
      have hkey : t ≠ .eof ∧ t ≠ .blockOpen ∧ t.isKey = true := by
        rcases h2 with h2 | rfl
        · cases h2 <;> simp [TTok.isKey]
        · simp [TTok.isKey]
      rw [tLine, M.bind_ok e1, if_neg hkey.1, if_neg hkey.2.1, if_pos hkey.2.2]
      refine M.bind_err ?_
      rw [tKeyValue, M.bind_ok (tExpect_ok e2)]
      have g2 := hN2 m (by omega)
      cases hx : tNext o _ with
      | err e' s' =>
        rw [M.bind_err hx] at g2
        rw [M.bind_err hx]
        injection g2 with a b
        rw [a, b]
      | panic => exact absurd hx (tNext_safe _)
      | oof => rw [M.bind_def, hx] at g2; cases g2
      | ok t1 c2 =>
        rw [M.bind_ok hx] at g2
        rw [M.bind_ok hx]
        exact M.bind_err g2

/-! ## Lexical errors -/

/-- A token that is wrong after layout is wrong. -/
theorem tNext_err {w s : List Char} {msg : TMsg} (hw : TLayout w) (hs : NotBefore (fun c => Blank c ∨ c = '#') s)
    (h : ∀ c : Cur, c.txt = s → ∃ e d, tTok o c = .err e d ∧ e.msg = msg) {c : Cur} (hc : c.txt = w ++ s) :
    ∃ e d, tNext o c = .err e d ∧ e.msg = msg := by
  obtain ⟨d, e, hd⟩ := tSkip_layout hw (rest := s) (by
    intro y q e
    have := hs y (by rw [e]; rfl)
    simp only [not_or] at this
    have hb : isWs y = false := by simpa using fun h => this.1 ((blank_iff y).2 h)
    simp [hb, this.2]) (n := c.txt.length + 1) (c := c) hc (by rw [hc]; simp only [List.length_append]; omega)
  obtain ⟨e', d', h1, h2⟩ := h d hd
  exact ⟨e', d', by simp only [tNext, e, h1], h2⟩

theorem Grouped.cons {s ds : List Char} (h : Grouped s ds) : ∃ d r, s = d :: r ∧ isDig d = true := by
  obtain ⟨⟨d, r, h1, h2⟩, _⟩ := h
  exact ⟨d, r, h1, (digit_iff d).1 h2⟩

/-- Integers out of range. -/
theorem tTok_big {sg s ds r : List Char} (hg : Grouped s ds) (hr : NotBefore (fun c => Bare c ∨ c = '.') r)
    (hb : (sg = [] ∨ sg = ['+']) ∧ 2 ^ 63 ≤ decimal ds ∨ sg = ['-'] ∧ 2 ^ 63 < decimal ds) {c : Cur}
    (hc : c.txt = sg ++ s ++ r) : ∃ e d, tTok o c = .err e d ∧ e.msg = .parse "tokenizer".toList := by
  obtain ⟨d, t, hs, hd⟩ := hg.cons
  have hsg : sg = [] ∨ sg = ['+'] ∨ sg = ['-'] := by
    rcases hb with ⟨h | h, _⟩ | ⟨h, _⟩
    · exact .inl h
    · exact .inr (.inl h)
    · exact .inr (.inr h)
  have hch : c.ch = '+' ∨ c.ch = '-' ∨ isDig c.ch = true := by
    rcases hsg with rfl | rfl | rfl
    · right; right; rw [hs] at hc; rw [Cur.ch_cons (x := d) (t := t ++ r) (by simpa using hc)]; exact hd
    · left; exact Cur.ch_cons (t := s ++ r) (by simpa using hc)
    · right; left; exact Cur.ch_cons (t := s ++ r) (by simpa using hc)
  have hall : ∀ x ∈ ds, isDig x = true := by
    obtain ⟨_, h2, rfl⟩ := hg
    intro x hx
    obtain ⟨m1, m2⟩ := List.mem_filter.1 hx
    rcases h2 x m1 with h | h
    · exact (digit_iff x).1 h
    · simp [h] at m2
  have hne : c.ch ≠ '\x00' ∧ c.ch ≠ ',' ∧ c.ch ≠ '[' ∧ c.ch ≠ ']' ∧ c.ch ≠ '=' := by
    rcases hch with h | h | h
    · rw [h]; decide
    · rw [h]; decide
    · refine ⟨?_, ?_, ?_, ?_, ?_⟩ <;> (intro e; rw [e] at h; revert h; decide)
  obtain ⟨c1, h1, h2⟩ := tNum_digits (o := o) (c := c) (t := t ++ r) hsg hd (by rw [hc, hs]; simp)
  obtain ⟨c2, _, h4⟩ := tNumRest_int (o := o) (neg := sg == ['-']) (num := if sg = ['-'] then ['-'] else []) hg hr
    (c := c1) (by rw [h2, hs]; simp)
  simp only [tTok, if_neg hne.1, if_neg hne.2.1, if_neg hne.2.2.1, if_neg hne.2.2.2.1, if_neg hne.2.2.2.2, if_pos hch, h1, h4]
  have hnone : parseI64Str ((if sg = ['-'] then ['-'] else []) ++ ds) = none := by
    rcases hb with ⟨h | h, hb⟩ | ⟨h, hb⟩
    · subst h; exact parseI64_pos_big hall hb
    · subst h; exact parseI64_pos_big hall hb
    · subst h; exact parseI64_neg_big hall hb
  rw [hnone]
  exact ⟨_, _, rfl, rfl⟩

/-- A word that is not terminated. -/
theorem tTok_word {w r : List Char} {t : TTok} {x : Char} (hw : (w, t) ∈ tomlWords) (hx : ¬ Bare x ∧ x ≠ '.')
    (hx2 : ¬ Terminated [x]) (h0 : x ≠ '\x00') {c : Cur} (hc : c.txt = w ++ x :: r) :
    ∃ e d, tTok o c = .err e d ∧ e.msg = .parse "tokenizer".toList := by
  have key := span_run (k := rcol) (p := fun x => isTIdent x || x == '.') (c := c) (a := w) (b := x :: r) hc (by
    intro y hy
    simp only [tomlWords, List.mem_cons, List.not_mem_nil, or_false, Prod.mk.injEq] at hw
    rcases hw with ⟨rfl, _⟩ | ⟨rfl, _⟩ | ⟨rfl, _⟩ | ⟨rfl, _⟩ <;>
      (simp only [List.mem_cons, List.not_mem_nil, or_false] at hy
       rcases hy with rfl | rfl | rfl | rfl | rfl <;> decide)) (StopAt.cons (by
    have : isTIdent x = false := by simpa using fun h => hx.1 ((bare_iff x).2 h)
    simp [this, hx.2]))
  have hterm : isTTerm x = false := by
    simp only [Terminated, List.head?_cons, Option.some.injEq, forall_eq', not_or] at hx2
    simp [isTTerm, hx2, h0]
  have hid : tTok o c = tIdent [] c := by
    simp only [tomlWords, List.mem_cons, List.not_mem_nil, or_false, Prod.mk.injEq] at hw
    rcases hw with ⟨rfl, _⟩ | ⟨rfl, _⟩ | ⟨rfl, _⟩ | ⟨rfl, _⟩ <;>
      (have hch := Cur.ch_cons (c := c) hc
       simp only [tTok, hch]
       rw [if_neg (by decide), if_neg (by decide), if_neg (by decide), if_neg (by decide), if_neg (by decide),
         if_neg (by decide), if_neg (by decide), if_pos (by decide)])
  rw [hid]
  simp only [tIdent, Cur.ch_cons key.2, hterm]
  exact ⟨_, _, rfl, rfl⟩

/-- Without a closing quote there is no string. -/
theorem tStrBody_unclosed {n : Nat} : ∀ {c : Cur} (val : List Char), '"' ∉ c.txt → c.txt.length + 2 ≤ n →
    ∃ e d, tStrBody false n val c = .err e d ∧ e.msg = .parse "string".toList := by
  induction n with
  | zero => intro c val _ h; omega
  | succ n ih =>
    intro c val hq hn
    have hc : c.ch ≠ '"' := by
      intro e
      have := tnext_dec (c := c) (by rw [e]; decide)
      rw [this, e] at hq
      simp at hq
    have hq' : ∀ d : Cur, '"' ∉ d.txt → '"' ∉ d.tnext.txt := by
      intro d hd
      rw [Cur.tnext, Cur.next_txt]
      exact fun h => hd (List.mem_of_mem_tail h)
    simp only [tStrBody, if_neg hc]
    split
    · rename_i hb
      have := tnext_lt (c := c) (by rw [hb]; decide)
      have := tnext_len c.tnext
      exact ih _ (hq' _ (hq' _ hq)) (by omega)
    · split
      · exact ⟨_, _, rfl, rfl⟩
      · rename_i hz
        have := tnext_lt hz
        exact ih _ (hq' _ hq) (by omega)

/-- Two quotes do not make an empty string. -/
theorem tTok_empty {r : List Char} (hr : '"' ∉ r) {c : Cur} (hc : c.txt = '"' :: '"' :: r) :
    ∃ e d, tTok o c = .err e d ∧ e.msg = .parse "string".toList := by
  have h1 : c.tnext.txt = '"' :: r := tnext_cons hc
  have h2 : c.tnext.tnext.txt = r := tnext_cons h1
  have h3 : c.tnext.tnext.ch ≠ '"' := by
    intro e
    have := tnext_dec (c := c.tnext.tnext) (by rw [e]; decide)
    rw [h2, e] at this
    rw [this] at hr
    simp at hr
  have hq : tQuotes 2 c.tnext = (1, c.tnext.tnext) := by
    simp only [tQuotes, Cur.ch_cons h1, if_true, if_neg h3]
  obtain ⟨e, d, h4, h5⟩ := tStrBody_unclosed (c := c.tnext.tnext) (n := c.tnext.tnext.txt.length + 2) [] (by rw [h2]; exact hr)
    (Nat.le_refl _)
  have : tTok o c = tStr c := by
    simp only [tTok, Cur.ch_cons hc]
    rw [if_neg (by decide), if_neg (by decide), if_neg (by decide), if_neg (by decide), if_neg (by decide),
      if_neg (by decide), if_pos trivial]
  rw [this]
  refine ⟨e, d, ?_, h5⟩
  simp only [tStr, hq]
  rw [show ((1 : Nat) == 2) = false from rfl, h4]

end NS
