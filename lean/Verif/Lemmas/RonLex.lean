import Verif.Lemmas.Progress
import Verif.Lemmas.JsonLex
import Verif.Spec.RonDoc
/-! The RON lexer reads every document as its lexemes. -/
namespace NS

/-- Token of a RON lexeme. -/
def rtok : Lexeme → Tok
  | .punct t => t
  | .num t => t.tok
  | .word w =>
    if w = ['t', 'r', 'u', 'e'] then .bool true
    else if w = ['f', 'a', 'l', 's', 'e'] then .bool false
    else .ident
  | .str _ => .str
  | .eof => .eof

namespace Ron

theorem next_eq (fl) (st : PSt) (n : Nat) (h : st.cur.txt.length < n) :
    rNext fl st = match rSkip n st with
      | .ok _ st' => rTok fl st'
      | r => r := by
  rw [rNext, (rSkip_prog (Nat.lt_succ_self _) h).1]
  cases rSkip n st <;> rfl

theorem next_ws {fl} {st : PSt} {w : Char} {t : List Char} (h : st.cur.txt = w :: t) (hw : isWs w = true) :
    rNext fl st = rNext fl { st with cur := st.cur.next rcol } := by
  rw [next_eq fl st (st.cur.txt.length + 1) (by omega),
    next_eq fl { st with cur := st.cur.next rcol } (st.cur.txt.length + 1) (by simp; omega)]
  simp only [rSkip, Cur.span_step h hw]

theorem ws {fl w txt t rest sb ib} (hw : isWs w = true) (h : TokAt (rNext fl) txt t rest sb ib) :
    TokAt (rNext fl) (w :: txt) t rest sb ib := by
  intro st hst
  rw [next_ws hst hw]
  exact h { st with cur := st.cur.next rcol } (by simp [hst])

theorem next_start {fl} {st : PSt} {x : Char} {t : List Char} (h : st.cur.txt = x :: t)
    (hw : isWs x = false) (hx : x ≠ '/') (hq : x ≠ '\'') : rNext fl st = rTok fl st := by
  rw [rNext, rSkip]
  have hs : (st.cur.span rcol isWs).2 = st.cur := by
    rw [Cur.span_stop]; intro y r e; rw [h] at e; injection e with e1; rw [← e1, hw]
  have e := Cur.ch_cons h
  simp only [hs, e, if_neg hx, if_neg hq]

theorem next_end {fl} {st : PSt} (h : st.cur.txt = []) :
    rNext fl st = .ok () { st with tok := .eof } := by
  rw [rNext, rSkip]
  have hs : (st.cur.span rcol isWs).2 = st.cur := by
    rw [Cur.span_stop]; intro y r e; rw [h] at e; cases e
  have e := Cur.ch_nil h
  simp [hs, e, rTok]

theorem tok_end {fl} : TokAt (rNext fl) [] .eof [] none none := fun st h => ⟨st.cur, h, next_end h⟩

theorem punct_start {x : Char} {t : Tok} (h : rPunct x = some t) :
    isWs x = false ∧ x ≠ '/' ∧ x ≠ '\'' ∧ x ≠ '\x00' := by
  unfold rPunct at h
  repeat' (split at h; · subst x; decide)
  cases h

theorem tok_punct {fl x t rest} (h : rPunct x = some t) : TokAt (rNext fl) (x :: rest) t rest none none := by
  intro st hst
  obtain ⟨h1, h2, h3, h4⟩ := punct_start h
  refine ⟨st.cur.next rcol, by simp [hst], ?_⟩
  rw [next_start hst h1 h2 h3]
  have := Cur.ch_cons hst
  simp [rTok, this, h4, h]

theorem isIdChar_iff (c : Char) : isIdChar c = true ↔ IdCont c := by
  simp [isIdChar, IdCont, isIdStart_iff, IdStart, isDig]

theorem start_facts {x : Char} (h : isIdStart x = true) :
    isWs x = false ∧ x ≠ '/' ∧ x ≠ '\'' ∧ x ≠ '\x00' ∧ rPunct x = none ∧
      ¬ (x = '.' ∨ x = '-' ∨ x = '+' ∨ isDig x = true) := by
  have h' := (isIdStart_iff x).1 h
  have key : ∀ y : Char, isIdStart y = false → x ≠ y := fun y hy e => by rw [e, hy] at h; cases h
  refine ⟨?_, key _ (by decide), key _ (by decide), key _ (by decide), ?_, ?_⟩
  · have a1 := key ' ' (by decide)
    have a2 := key '\n' (by decide)
    have a3 := key '\t' (by decide)
    have a4 := key '\r' (by decide)
    simp [isWs, a1, a2, a3, a4]
  · have a1 := key ':' (by decide)
    have a2 := key ',' (by decide)
    have a3 := key '[' (by decide)
    have a4 := key ']' (by decide)
    have a5 := key '(' (by decide)
    have a6 := key ')' (by decide)
    have a7 := key '{' (by decide)
    have a8 := key '}' (by decide)
    simp [rPunct, a1, a2, a3, a4, a5, a6, a7, a8]
  · rintro (e | e | e | e)
    · exact key _ (by decide) e
    · exact key _ (by decide) e
    · exact key _ (by decide) e
    · rcases isDig_cases e with e | e | e | e | e | e | e | e | e | e <;> exact key _ (by decide) e

theorem tok_word {fl tail} {w : List Char} (hw : RWord w) (ht : StopAt isIdChar tail) :
    TokAt (rNext fl) (w ++ tail) (rtok (.word w)) tail none (some w) := by
  intro st hst
  obtain ⟨c, r, rfl, h1, h2⟩ := hw
  have h1' : isIdStart c = true := (isIdStart_iff c).2 h1
  have hall : ∀ x ∈ c :: r, isIdChar x = true := by
    intro x hx
    rw [isIdChar_iff]
    rcases List.mem_cons.1 hx with rfl | hx
    · exact .inl h1
    · exact h2 x hx
  obtain ⟨q1, q2⟩ := span_run (k := rcol) hst hall ht
  refine ⟨_, q2, ?_⟩
  obtain ⟨p1, p2, p3, p4, p5, p6⟩ := start_facts h1'
  rw [next_start hst p1 p2 p3]
  have := Cur.ch_cons hst
  simp only [rTok, this, if_neg p4, p5, if_neg p6, if_pos h1', q1, rtok]
  split
  · rfl
  split <;> rfl

theorem tok_quoted {fl body out tail} (h : StrBody rcol body out) :
    TokAt (rNext fl) ('"' :: (body ++ '"' :: tail)) .str tail (some out) none := by
  intro st hst
  have h0 : (st.cur.next rcol).txt = body ++ '"' :: tail := by simp [hst]
  obtain ⟨n', c', e', l', r'⟩ := h (st.cur.txt.length + 1) (st.cur.next rcol) ('"' :: tail) [] h0
    (by simp; omega)
  refine ⟨c'.next rcol, by simp [e'], ?_⟩
  rw [next_start hst (by decide) (by decide) (by decide)]
  have hc := Cur.ch_cons hst
  have hc' := Cur.ch_cons e'
  cases n' with
  | zero => simp at l'
  | succ n' =>
    rw [List.nil_append] at r'
    have : lexStr rcol (st.cur.txt.length + 1) (st.cur.next rcol) [] = .done (c'.next rcol) out := by
      rw [r', lexStr, if_pos hc']
    simp only [rTok, hc, this]
    rfl

theorem tok_num {fl s t tail} (hs : NumLit fl s t) (ht : StopAt isNumCont tail) :
    TokAt (rNext fl) (s ++ tail) t.tok tail none none := by
  intro st hst
  obtain ⟨c', h1, h2⟩ := hs.lex (k := rcol) hst ht
  obtain ⟨y, r, e, hx⟩ := hs.head
  refine ⟨c', h1, ?_⟩
  have hf := numHead_facts hx
  have hp : rPunct y = none ∧ y ≠ '\'' := by
    rcases hx with rfl | rfl | hx
    · decide
    · decide
    · rcases isDig_cases hx with e | e | e | e | e | e | e | e | e | e <;> subst e <;> decide
  have e' : st.cur.txt = y :: (r ++ tail) := by rw [hst, e]; rfl
  rw [next_start e' hf.1 hf.2.1 hp.2]
  have := Cur.ch_cons e'
  simp only [rTok, this, if_neg hf.2.2.1, hp.1, if_pos (show y = '.' ∨ y = '-' ∨ y = '+' ∨ isDig y = true from .inr hx), h2]
  rfl

end Ron

theorem RSpell.tokAt {fl l s r} (h : RSpell fl l s) (hs : RSep l r) :
    TokAt (rNext fl) (s ++ r) (rtok l) r l.sb l.ib := by
  have hw : (∀ c, r.head? = some c → ¬ IdCont c) → StopAt isIdChar r := by
    intro h x t e
    have := h x (by rw [e]; rfl)
    rw [← Ron.isIdChar_iff] at this
    simpa using this
  cases h with
  | colon => exact Ron.tok_punct rfl
  | comma => exact Ron.tok_punct rfl
  | blockOpen => exact Ron.tok_punct rfl
  | blockClose => exact Ron.tok_punct rfl
  | curlyOpen => exact Ron.tok_punct rfl
  | curlyClose => exact Ron.tok_punct rfl
  | parenOpen => exact Ron.tok_punct rfl
  | parenClose => exact Ron.tok_punct rfl
  | word h => exact Ron.tok_word h (hw hs)
  | num h => exact Ron.tok_num h (stopNum hs)
  | @str b s h =>
    have := Ron.tok_quoted (fl := fl) (tail := r) (h.body (k := rcol))
    simpa [rtok, Lexeme.sb, Lexeme.ib] using this

namespace Ron

/-! ## Layout -/

theorem block_run (b : List Char) : ∀ (x : Char) (rest : List Char) (l c : Nat),
    ¬ ['*', '/'] <:+: x :: b → '\x00' ∉ b →
    (rBlock (b ++ '*' :: '/' :: rest) (x == '*') l c).txt = rest := by
  induction b with
  | nil =>
    intro x rest l c _ _
    have e1 : ('*' : Char) ≠ '/' := by decide
    have e2 : ('*' : Char) ≠ '\x00' := by decide
    have e3 : ('/' : Char) ≠ '\x00' := by decide
    simp [rBlock]
  | cons y b ih =>
    intro x rest l c hx h0
    have hy : y ≠ '\x00' := by intro e; exact h0 (by simp [e])
    have hxy : ¬ (y = '/' ∧ (x == '*') = true) := by
      rintro ⟨rfl, h⟩
      simp only [beq_iff_eq] at h
      subst h
      exact hx ⟨[], b, rfl⟩
    have := ih y rest ((Cur.mk (y :: (b ++ '*' :: '/' :: rest)) l c).next rcol).line
      ((Cur.mk (y :: (b ++ '*' :: '/' :: rest)) l c).next rcol).col
      (by
        rintro ⟨p, q, e⟩
        exact hx ⟨x :: p, q, by rw [← e]; simp⟩)
      (by intro e; exact h0 (by simp [e]))
    simp only [List.cons_append, rBlock, if_neg hy, if_neg hxy]
    exact this

theorem next_via {fl} {st : PSt} {c' : Cur} (hl : c'.txt.length < st.cur.txt.length)
    (h : ∀ n, rSkip (n + 1) st = rSkip n { st with cur := c' }) : rNext fl st = rNext fl { st with cur := c' } := by
  rw [next_eq fl st (st.cur.txt.length + 1) (by omega), h,
    next_eq fl { st with cur := c' } st.cur.txt.length hl]

theorem skip_slash {n} {st : PSt} {t} (h : st.cur.txt = '/' :: t) :
    rSkip (n + 1) st = if (st.cur.next rcol).ch = '/' then
        rSkip n { st with cur := if ((st.cur.next rcol).span rcol fun x => x ≠ '\n' && x ≠ '\x00').2.ch = '\n' then
          ((st.cur.next rcol).span rcol fun x => x ≠ '\n' && x ≠ '\x00').2.next rcol
          else ((st.cur.next rcol).span rcol fun x => x ≠ '\n' && x ≠ '\x00').2 }
      else if (st.cur.next rcol).ch = '*' then
        rSkip n { st with cur := rBlock (st.cur.next rcol).txt false (st.cur.next rcol).line (st.cur.next rcol).col }
      else errParse "comment".toList { st with cur := st.cur.next rcol } := by
  have hs : (st.cur.span rcol isWs).2 = st.cur := by
    rw [Cur.span_stop]; intro y r e; rw [h] at e; injection e with e1; rw [← e1]; decide
  rw [rSkip]
  simp only [hs]
  rw [if_pos (Cur.ch_cons h)]

theorem next_line {fl} {st : PSt} {b t : List Char} (h : st.cur.txt = '/' :: '/' :: (b ++ t))
    (hb : '\n' ∉ b) (h0 : '\x00' ∉ b) (ht : ∀ c, t.head? = some c → c = '\n') :
    ∃ c', c'.txt = t.tail ∧ rNext fl st = rNext fl { st with cur := c' } := by
  have h1 : (st.cur.next rcol).txt = ('/' :: b) ++ t := by simp [h]
  obtain ⟨q1, q2⟩ := span_run (k := rcol) (p := fun x => x ≠ '\n' && x ≠ '\x00') h1
    (by
      intro x hx
      rcases List.mem_cons.1 hx with rfl | hx
      · decide
      · have a1 : x ≠ '\n' := fun e => hb (e ▸ hx)
        have a2 : x ≠ '\x00' := fun e => h0 (e ▸ hx)
        simp [a1, a2])
    (by
      intro x r e
      have := ht x (by rw [e]; rfl)
      subst this; decide)
  refine ⟨(if ((st.cur.next rcol).span rcol fun x => x ≠ '\n' && x ≠ '\x00').2.ch = '\n' then
          ((st.cur.next rcol).span rcol fun x => x ≠ '\n' && x ≠ '\x00').2.next rcol
          else ((st.cur.next rcol).span rcol fun x => x ≠ '\n' && x ≠ '\x00').2), ?_, next_via ?_ ?_⟩
  · cases t with
    | nil => rw [if_neg (by rw [Cur.ch_nil q2]; decide)]; simpa using q2
    | cons y t =>
      have := ht y rfl
      subst this
      rw [if_pos (Cur.ch_cons q2)]; simp only [Cur.next_txt]; rw [q2]
  · have : (if ((st.cur.next rcol).span rcol fun x => x ≠ '\n' && x ≠ '\x00').2.ch = '\n' then
          ((st.cur.next rcol).span rcol fun x => x ≠ '\n' && x ≠ '\x00').2.next rcol
          else ((st.cur.next rcol).span rcol fun x => x ≠ '\n' && x ≠ '\x00').2).txt.length ≤ t.length := by
      split
      · simp only [Cur.next_txt]; rw [q2]; simp
      · rw [q2]; exact Nat.le_refl _
    rw [h]; simp only [List.length_cons, List.length_append] at *; omega
  · intro n
    rw [skip_slash h, if_pos (Cur.ch_cons (by simpa using h1))]

theorem layout {fl w} (h : Layout w) {txt t rest sb ib} (ht : TokAt (rNext fl) txt t rest sb ib) :
    TokAt (rNext fl) (w ++ txt) t rest sb ib := by
  induction h with
  | nil => exact ht
  | @space c w hc _ ih =>
    refine ws ?_ ih
    rcases hc with rfl | rfl | rfl | rfl <;> decide
  | @line b w hb h0 _ ih =>
    intro st hst
    obtain ⟨c', e1, e2⟩ := next_line (fl := fl) (st := st) (b := b) (t := '\n' :: (w ++ txt)) (by simpa using hst) hb h0
      (by simp)
    rw [e2]
    exact ih { st with cur := c' } e1
  | @block b w hb h0 _ ih =>
    intro st hst
    have h1 : (st.cur.next rcol).txt = '*' :: (b ++ '*' :: '/' :: (w ++ txt)) := by simp [hst]
    have hch : (st.cur.next rcol).ch = '*' := Cur.ch_cons h1
    have e2 : (rBlock (st.cur.next rcol).txt false (st.cur.next rcol).line (st.cur.next rcol).col).txt = w ++ txt := by
      rw [h1]
      have e1 : ('*' : Char) ≠ '/' := by decide
      have e3 : ('*' : Char) ≠ '\x00' := by decide
      simp only [rBlock, if_neg e3, e1, false_and, if_false]
      exact block_run b '*' (w ++ txt) _ _ hb h0
    have : rNext fl st = rNext fl { st with cur := rBlock (st.cur.next rcol).txt false (st.cur.next rcol).line (st.cur.next rcol).col } := by
      refine next_via ?_ ?_
      · rw [e2, hst]; simp; omega
      · intro n
        rw [skip_slash (by simpa using hst), hch, if_neg (by decide), if_pos rfl]
    rw [this]
    exact ih _ e2

theorem layoutEnd {fl w} (h : LayoutEnd w) : TokAt (rNext fl) w .eof [] none none := by
  rcases h with h | ⟨a, b, ha, hb, h0, rfl⟩
  · simpa using layout h (tok_end (fl := fl))
  · refine layout ha ?_
    intro st hst
    obtain ⟨c', e1, e2⟩ := next_line (fl := fl) (st := st) (b := b) (t := []) (by simpa using hst) hb h0 (by simp)
    rw [e2]
    exact tok_end { st with cur := c' } e1

end Ron

theorem RDoc.stream {fl ls txt tail} (h : RDoc fl ls txt tail) : Stream (rNext fl) rtok txt ls tail := by
  induction h with
  | nil => exact .nil
  | cons hw hs hsep _ ih =>
    refine .cons ?_ ih
    rw [List.append_assoc]
    exact Ron.layout hw (hs.tokAt hsep)

theorem RFull.stream {fl ls txt} (h : RFull fl ls txt) : Stream (rNext fl) rtok txt (ls ++ [.eof]) [] := by
  obtain ⟨w, hw, h⟩ := h
  exact h.stream.append (.cons (Ron.layoutEnd hw) .nil)

theorem RTree.lexemes_list (xs trail) : (RTree.list xs trail).lexemes =
    .punct .blockOpen :: (commaLexemes trail (xs.map RTree.lexemes) ++ [.punct .blockClose]) := by
  rw [RTree.lexemes]; congr 3
  exact List.attach_map_val (l := xs) (f := RTree.lexemes)

theorem RTree.lexemes_tuple (xs trail) : (RTree.tuple xs trail).lexemes =
    .punct .parenOpen :: (commaLexemes trail (xs.map RTree.lexemes) ++ [.punct .parenClose]) := by
  rw [RTree.lexemes]; congr 3
  exact List.attach_map_val (l := xs) (f := RTree.lexemes)

theorem RTree.lexemes_fields (ms trail) : (RTree.fields ms trail).lexemes =
    .punct .parenOpen :: (commaLexemes trail (ms.map fun m => .word m.1 :: .punct .colon :: m.2.lexemes) ++
      [.punct .parenClose]) := by
  rw [RTree.lexemes]; congr 3
  exact List.attach_map_val (l := ms) (f := fun m => .word m.1 :: .punct .colon :: m.2.lexemes)

theorem RTree.lexemes_map (ms trail) : (RTree.map ms trail).lexemes =
    .punct .curlyOpen :: (commaLexemes trail (ms.map fun m => m.1.lexemes ++ .punct .colon :: m.2.lexemes) ++
      [.punct .curlyClose]) := by
  rw [RTree.lexemes]; congr 3
  exact List.attach_map_val (l := ms) (f := fun m => m.1.lexemes ++ .punct .colon :: m.2.lexemes)

theorem RTree.lexemes_ctor (w b) : (RTree.ctor w b).lexemes = .word w :: b.lexemes := by rw [RTree.lexemes]

end NS
