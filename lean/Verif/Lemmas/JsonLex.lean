import Verif.Lemmas.LexDoc
import Verif.Model.Json
import Verif.Spec.JsonDoc
/-! The JSON lexer reads every document as its lexemes. -/
namespace NS

/-- Token of a JSON lexeme. -/
def jtok : Lexeme → Tok
  | .punct t => t
  | .num t => t.tok
  | .word w =>
    if w = ['t', 'r', 'u', 'e'] then .bool true
    else if w = ['f', 'a', 'l', 's', 'e'] then .bool false
    else if w = ['n', 'u', 'l', 'l'] then .null
    else .bareIdent
  | .str _ => .str
  | .eof => .eof

theorem dropWhile_length_le {p : Char → Bool} (t : List Char) : (t.dropWhile p).length ≤ t.length := by
  induction t with
  | nil => simp
  | cons x t ih => simp only [List.dropWhile]; cases p x <;> simp; omega

theorem jBlock_txt (t : List Char) (x : Char) (l c : Nat) : (jBlock t x l c).2.txt.length ≤ t.length := by
  induction t generalizing x l c with
  | nil => simp [jBlock]
  | cons y t ih =>
    simp only [jBlock]
    match t with
    | [] => simp
    | z :: r =>
      simp only
      split
      · simp
      · split
        · simp; omega
        · have := ih z ((Cur.mk (y :: z :: r) l c).next jcol).line ((Cur.mk (y :: z :: r) l c).next jcol).col
          simp only [List.length_cons] at *
          omega

/-- Enough fuel for skipping is the remaining text. -/
theorem jSkip_fuel {n m : Nat} {c : Cur} (hn : c.txt.length < n) (hm : c.txt.length < m) :
    jSkip n c = jSkip m c ∧ jSkip n c ≠ .oof := by
  induction n generalizing m c with
  | zero => omega
  | succ n ih =>
    cases m with
    | zero => omega
    | succ m =>
      simp only [jSkip]
      have hw : (c.span jcol isWs).2.txt.length ≤ c.txt.length := by
        rw [Cur.span_txt]; exact dropWhile_length_le _
      generalize (c.span jcol isWs).2 = w at hw
      by_cases h1 : w.ch = '/'
      · have hp : 0 < w.txt.length := by
          cases e : w.txt with
          | nil => rw [Cur.ch_nil e] at h1; exact absurd h1 (by decide)
          | cons _ _ => simp
        have hnx : (w.next jcol).txt.length < w.txt.length := by simp; omega
        rw [if_pos h1, if_pos h1]
        generalize w.next jcol = u at hnx
        split
        · apply ih <;> (rw [Cur.span_txt]; have := dropWhile_length_le (p := fun x => x ≠ '\n' && x ≠ '\x00') u.txt; omega)
        · split
          · have hb := jBlock_txt u.txt u.ch u.line u.col
            generalize jBlock u.txt u.ch u.line u.col = r at hb
            obtain ⟨b, c2⟩ := r
            simp only at hb
            cases b with
            | true => exact ih (by omega) (by omega)
            | false => simp
          · simp
      · simp [h1]

theorem jNext_eq (fl) (st : PSt) (n : Nat) (h : st.cur.txt.length < n) :
    jNext fl st = match jSkip n st.cur with
      | .at c => jTok fl { st with cur := c }
      | .bad c what => failWith (fun st => .unexpectedToken st.tok what) { st with cur := c }
      | .oof => .oof := by
  rw [jNext, (jSkip_fuel (Nat.lt_succ_self _) h).1]
  cases jSkip n st.cur <;> rfl

/-- White space before a token is irrelevant. -/
theorem jNext_ws {fl} {st : PSt} {w : Char} {t : List Char} (h : st.cur.txt = w :: t) (hw : isWs w = true) :
    jNext fl st = jNext fl { st with cur := st.cur.next jcol } := by
  rw [jNext_eq fl st (st.cur.txt.length + 1) (by omega),
    jNext_eq fl { st with cur := st.cur.next jcol } (st.cur.txt.length + 1) (by simp; omega)]
  simp only [jSkip, Cur.span_step h hw]

theorem TokAt.ws {fl w txt t rest sb ib} (hw : isWs w = true) (h : TokAt (jNext fl) txt t rest sb ib) :
    TokAt (jNext fl) (w :: txt) t rest sb ib := by
  intro st hst
  rw [jNext_ws hst hw]
  exact h { st with cur := st.cur.next jcol } (by simp [hst])

/-- A text that starts with a token character. -/
theorem jNext_start {fl} {st : PSt} {x : Char} {t : List Char} (h : st.cur.txt = x :: t)
    (hw : isWs x = false) (hx : x ≠ '/') : jNext fl st = jTok fl st := by
  rw [jNext, jSkip]
  have hs : (st.cur.span jcol isWs).2 = st.cur := by
    rw [Cur.span_stop]; intro y r e; rw [h] at e; injection e with e1; rw [← e1, hw]
  have : st.cur.ch ≠ '/' := by rw [Cur.ch_cons h]; exact hx
  simp [hs, this]

theorem jNext_end {fl} {st : PSt} (h : st.cur.txt = []) :
    jNext fl st = .ok () { st with tok := .eof } := by
  rw [jNext, jSkip]
  have hs : (st.cur.span jcol isWs).2 = st.cur := by
    rw [Cur.span_stop]; intro y r e; rw [h] at e; cases e
  have e := Cur.ch_nil h
  simp [hs, e, jTok]

theorem jTok_end {fl} : TokAt (jNext fl) [] .eof [] none none := by
  intro st h
  exact ⟨st.cur, h, jNext_end h⟩

theorem jPunct_start {x : Char} {t : Tok} (h : jPunct x = some t) :
    isWs x = false ∧ x ≠ '/' ∧ x ≠ '\x00' := by
  unfold jPunct at h
  repeat' (split at h; · subst x; decide)
  cases h

theorem jTok_punct {fl x t rest} (h : jPunct x = some t) : TokAt (jNext fl) (x :: rest) t rest none none := by
  intro st hst
  obtain ⟨h1, h2, h3⟩ := jPunct_start h
  refine ⟨st.cur.next jcol, by simp [hst], ?_⟩
  rw [jNext_start hst h1 h2]
  have := Cur.ch_cons hst
  simp [jTok, this, h3, h]

theorem jTok_word {fl tail} {w : List Char} {tk : Tok} (ht : StopAt isIdStart tail)
    (hw : (w = ['t', 'r', 'u', 'e'] ∧ tk = .bool true) ∨ (w = ['f', 'a', 'l', 's', 'e'] ∧ tk = .bool false) ∨
      (w = ['n', 'u', 'l', 'l'] ∧ tk = .null)) :
    TokAt (jNext fl) (w ++ tail) tk tail none (some w) := by
  intro st hst
  have hall : ∀ x ∈ w, isIdStart x = true := by
    rcases hw with ⟨rfl, _⟩ | ⟨rfl, _⟩ | ⟨rfl, _⟩ <;> decide
  obtain ⟨q1, q2⟩ := span_run (k := jcol) hst hall ht
  refine ⟨_, q2, ?_⟩
  have hx : ∃ x t, st.cur.txt = x :: t ∧ isWs x = false ∧ x ≠ '/' ∧ x ≠ '\x00' ∧ jPunct x = none ∧
      ¬ (x = '-' ∨ x = '+' ∨ isDig x = true) ∧ isIdStart x = true := by
    rcases hw with ⟨rfl, _⟩ | ⟨rfl, _⟩ | ⟨rfl, _⟩ <;> exact ⟨_, _, hst, by decide⟩
  obtain ⟨x, t, e, p1, p2, p3, p4, p5, p6⟩ := hx
  rw [jNext_start e p1 p2]
  have := Cur.ch_cons e
  simp only [jTok, this, if_neg p3, p4, if_neg p5, if_pos p6, q1]
  rcases hw with ⟨rfl, rfl⟩ | ⟨rfl, rfl⟩ | ⟨rfl, rfl⟩ <;> simp

/-- A quoted body that denotes `out`. -/
theorem jTok_quoted {fl body out tail} (h : StrBody jcol body out) :
    TokAt (jNext fl) ('"' :: (body ++ '"' :: tail)) .str tail (some out) none := by
  intro st hst
  have h0 : (st.cur.next jcol).txt = body ++ '"' :: tail := by simp [hst]
  obtain ⟨n', c', e', l', r'⟩ := h (st.cur.txt.length + 1) (st.cur.next jcol) ('"' :: tail) [] h0
    (by simp; omega)
  refine ⟨c'.next jcol, by simp [e'], ?_⟩
  rw [jNext_start hst (by decide) (by decide)]
  have hc := Cur.ch_cons hst
  have hc' := Cur.ch_cons e'
  cases n' with
  | zero => simp at l'
  | succ n' =>
    rw [List.nil_append] at r'
    have : lexStr jcol (st.cur.txt.length + 1) (st.cur.next jcol) [] = .done (c'.next jcol) out := by
      rw [r', lexStr, if_pos hc']
    simp only [jTok, hc, this]
    rfl


theorem jTok_num {fl s t tail} (hs : NumLit fl s t) (ht : StopAt isNumCont tail) :
    TokAt (jNext fl) (s ++ tail) t.tok tail none none := by
  intro st hst
  obtain ⟨c', h1, h2⟩ := hs.lex (k := jcol) hst ht
  obtain ⟨y, r, e, hx⟩ := hs.head
  refine ⟨c', h1, ?_⟩
  have hf := numHead_facts hx
  have hp : jPunct y = none := by
    rcases hx with rfl | rfl | hx
    · decide
    · decide
    · rcases isDig_cases hx with e | e | e | e | e | e | e | e | e | e <;> subst e <;> decide
  have e' : st.cur.txt = y :: (r ++ tail) := by rw [hst, e]; rfl
  rw [jNext_start e' hf.1 hf.2.1]
  have := Cur.ch_cons e'
  simp only [jTok, this, if_neg hf.2.2.1, hp, if_pos hx, h2]
  rfl

theorem isIdStart_iff (c : Char) :
    isIdStart c = true ↔ ('a' ≤ c ∧ c ≤ 'z') ∨ ('A' ≤ c ∧ c ≤ 'Z') ∨ c = '_' := by
  simp [isIdStart, or_assoc]

theorem JSpell.tokAt {fl l s r} (h : JSpell fl l s) (hs : JSep l r) :
    TokAt (jNext fl) (s ++ r) (jtok l) r l.sb l.ib := by
  have hw : (∀ c, r.head? = some c → ¬ (('a' ≤ c ∧ c ≤ 'z') ∨ ('A' ≤ c ∧ c ≤ 'Z') ∨ c = '_')) →
      StopAt isIdStart r := by
    intro h x t e
    have := h x (by rw [e]; rfl)
    rw [← isIdStart_iff] at this
    simpa using this
  cases h with
  | colon => exact jTok_punct rfl
  | comma => exact jTok_punct rfl
  | blockOpen => exact jTok_punct rfl
  | blockClose => exact jTok_punct rfl
  | curlyOpen => exact jTok_punct rfl
  | curlyClose => exact jTok_punct rfl
  | true => exact jTok_word (hw hs) (.inl ⟨rfl, rfl⟩)
  | false => exact jTok_word (hw hs) (.inr (.inl ⟨rfl, rfl⟩))
  | null => exact jTok_word (hw hs) (.inr (.inr ⟨rfl, rfl⟩))
  | num h => exact jTok_num h (stopNum hs)
  | @str b s h =>
    have := jTok_quoted (fl := fl) (tail := r) (h.body (k := jcol))
    simpa [jtok, Lexeme.sb, Lexeme.ib] using this

/-! ## Layout -/

theorem jBlock_run (b : List Char) : ∀ (x : Char) (rest : List Char) (l c : Nat),
    ¬ ['*', '/'] <:+: x :: b → '\x00' ∉ b →
    ∃ c', jBlock (x :: (b ++ '*' :: '/' :: rest)) x l c = (true, c') ∧ c'.txt = rest := by
  induction b with
  | nil =>
    intro x rest l c hx _
    have e1 : ('*' : Char) ≠ '/' := by decide
    have e2 : ('*' : Char) ≠ '\x00' := by decide
    have e3 : ('/' : Char) ≠ '\x00' := by decide
    refine ⟨(Cur.next jcol ⟨'*' :: '/' :: rest, ((Cur.mk (x :: '*' :: '/' :: rest) l c).next jcol).line,
      ((Cur.mk (x :: '*' :: '/' :: rest) l c).next jcol).col⟩).next jcol, ?_, by simp⟩
    simp only [List.nil_append, jBlock, if_neg e2, e1, and_false, if_false, if_neg e3, and_self, if_true]
  | cons y b ih =>
    intro x rest l c hx h0
    have hy : y ≠ '\x00' := by intro e; exact h0 (by simp [e])
    have hxy : ¬ (x = '*' ∧ y = '/') := by
      rintro ⟨rfl, rfl⟩
      exact hx ⟨[], b, rfl⟩
    obtain ⟨c', h1, h2⟩ := ih y rest ((Cur.mk (x :: y :: (b ++ '*' :: '/' :: rest)) l c).next jcol).line
      ((Cur.mk (x :: y :: (b ++ '*' :: '/' :: rest)) l c).next jcol).col
      (by
        rintro ⟨p, q, e⟩
        exact hx ⟨x :: p, q, by rw [← e]; simp⟩)
      (by intro e; exact h0 (by simp [e]))
    refine ⟨c', ?_, h2⟩
    simp only [List.cons_append, jBlock, if_neg hy, if_neg hxy]
    exact h1

/-- Skipping a comment or part of one, then reading, is reading. -/
theorem jNext_via {fl} {st : PSt} {c' : Cur} (hl : c'.txt.length < st.cur.txt.length)
    (h : ∀ n, jSkip (n + 1) st.cur = jSkip n c') : jNext fl st = jNext fl { st with cur := c' } := by
  rw [jNext_eq fl st (st.cur.txt.length + 1) (by omega), h,
    jNext_eq fl { st with cur := c' } st.cur.txt.length hl]

theorem jSkip_slash {n} {c : Cur} {t} (h : c.txt = '/' :: t) :
    jSkip (n + 1) c = if (c.next jcol).ch = '/' then jSkip n ((c.next jcol).span jcol fun x => x ≠ '\n' && x ≠ '\x00').2
      else if (c.next jcol).ch = '*' then
        match jBlock (c.next jcol).txt (c.next jcol).ch (c.next jcol).line (c.next jcol).col with
        | (true, c2) => jSkip n c2
        | (false, c2) => .bad c2 "MultiLineCommentClose".toList
      else .bad (c.next jcol) "CommentOpen".toList := by
  have hs : (c.span jcol isWs).2 = c := by
    rw [Cur.span_stop]; intro y r e; rw [h] at e; injection e with e1; rw [← e1]; decide
  rw [jSkip, hs]
  simp only
  rw [if_pos (Cur.ch_cons h)]
  generalize jBlock _ _ _ _ = r
  obtain ⟨b, c2⟩ := r
  cases b <;> rfl

theorem jNext_line {fl} {st : PSt} {b t : List Char} (h : st.cur.txt = '/' :: '/' :: (b ++ t))
    (hb : '\n' ∉ b) (h0 : '\x00' ∉ b) (ht : ∀ c, t.head? = some c → c = '\n') :
    ∃ c', c'.txt = t ∧ jNext fl st = jNext fl { st with cur := c' } := by
  have h1 : (st.cur.next jcol).txt = ('/' :: b) ++ t := by simp [h]
  obtain ⟨q1, q2⟩ := span_run (k := jcol) (p := fun x => x ≠ '\n' && x ≠ '\x00') h1
    (by
      intro x hx
      rcases List.mem_cons.1 hx with rfl | hx
      · decide
      · have a1 : x ≠ '\n' := fun e => hb (e ▸ hx)
        have a2 : x ≠ '\x00' := fun e => h0 (e ▸ hx)
        simp [a1, a2])
    (by
      intro x r e
      have := ht x (by rw [e]; rfl)
      subst this; decide)
  refine ⟨_, q2, jNext_via ?_ ?_⟩
  · rw [q2, h]; simp; omega
  · intro n
    rw [jSkip_slash h, if_pos (Cur.ch_cons (by simpa using h1))]

theorem Layout.tokAt {fl w} (h : Layout w) {txt t rest sb ib} (ht : TokAt (jNext fl) txt t rest sb ib) :
    TokAt (jNext fl) (w ++ txt) t rest sb ib := by
  induction h with
  | nil => exact ht
  | @space c w hc _ ih =>
    refine TokAt.ws ?_ ih
    rcases hc with rfl | rfl | rfl | rfl <;> decide
  | @line b w hb h0 _ ih =>
    intro st hst
    obtain ⟨c', e1, e2⟩ := jNext_line (fl := fl) (st := st) (b := b) (t := '\n' :: (w ++ txt)) (by simpa using hst) hb h0
      (by simp)
    rw [e2]
    have : TokAt (jNext fl) ('\n' :: (w ++ txt)) t rest sb ib := TokAt.ws (by decide) ih
    exact this { st with cur := c' } e1
  | @block b w hb h0 _ ih =>
    intro st hst
    have h1 : (st.cur.next jcol).txt = '*' :: (b ++ '*' :: '/' :: (w ++ txt)) := by simp [hst]
    have hch : (st.cur.next jcol).ch = '*' := Cur.ch_cons h1
    obtain ⟨c', e1, e2⟩ := jBlock_run b '*' (w ++ txt) (st.cur.next jcol).line (st.cur.next jcol).col hb h0
    have : jNext fl st = jNext fl { st with cur := c' } := by
      refine jNext_via ?_ ?_
      · rw [e2, hst]; simp; omega
      · intro n
        rw [jSkip_slash (by simpa using hst), hch, if_neg (by decide), if_pos rfl, h1, e1]
    rw [this]
    exact ih { st with cur := c' } e2

theorem LayoutEnd.tokAt {fl w} (h : LayoutEnd w) : TokAt (jNext fl) w .eof [] none none := by
  rcases h with h | ⟨a, b, ha, hb, h0, rfl⟩
  · simpa using h.tokAt (jTok_end (fl := fl))
  · refine ha.tokAt ?_
    intro st hst
    obtain ⟨c', e1, e2⟩ := jNext_line (fl := fl) (st := st) (b := b) (t := []) (by simpa using hst) hb h0 (by simp)
    rw [e2]
    exact jTok_end { st with cur := c' } e1

theorem JDoc.stream {fl ls txt tail} (h : JDoc fl ls txt tail) : Stream (jNext fl) jtok txt ls tail := by
  induction h with
  | nil => exact .nil
  | cons hw hs hsep _ ih =>
    refine .cons ?_ ih
    rw [List.append_assoc]
    exact hw.tokAt (hs.tokAt hsep)

theorem JFull.stream {fl ls txt} (h : JFull fl ls txt) : Stream (jNext fl) jtok txt (ls ++ [.eof]) [] := by
  obtain ⟨w, hw, h⟩ := h
  exact h.stream.append (.cons hw.tokAt .nil)

theorem JTree.lexemes_arr (xs trail) : (JTree.arr xs trail).lexemes =
    .punct .blockOpen :: (commaLexemes trail (xs.map JTree.lexemes) ++ [.punct .blockClose]) := by
  rw [JTree.lexemes]
  congr 3
  exact List.attach_map_val (l := xs) (f := JTree.lexemes)

theorem JTree.lexemes_obj (ms trail) : (JTree.obj ms trail).lexemes =
    .punct .curlyOpen :: (commaLexemes trail (ms.map fun m => m.1.lexemes ++ .punct .colon :: m.2.lexemes) ++
      [.punct .curlyClose]) := by
  rw [JTree.lexemes]
  congr 3
  exact List.attach_map_val (l := ms) (f := fun m => m.1.lexemes ++ .punct .colon :: m.2.lexemes)

end NS
