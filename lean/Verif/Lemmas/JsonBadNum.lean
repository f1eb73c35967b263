import Verif.Lemmas.JsonRoundTrip
import Verif.Lemmas.JsonTotal
import Verif.Spec.TextErr
/-! Texts on which the first token fails; numbers in layout. -/
namespace NS
variable {env : Env} {fl : FloatOps}

/-- Layout before a token is skipped, whatever follows. -/
theorem Layout.skip {w} (h : Layout w) {txt : List Char} {st : PSt} (hst : st.cur.txt = w ++ txt) :
    ∃ c', c'.txt = txt ∧ jNext fl st = jNext fl { st with cur := c' } := by
  induction h generalizing st with
  | nil => exact ⟨st.cur, hst, rfl⟩
  | @space c w hc _ ih =>
    rw [jNext_ws (t := w ++ txt) hst (by rcases hc with rfl | rfl | rfl | rfl <;> decide)]
    exact ih (st := { st with cur := st.cur.next jcol }) (by simp [hst])
  | @line b w hb h0 _ ih =>
    obtain ⟨c', e1, e2⟩ := jNext_line (fl := fl) (st := st) (b := b) (t := '\n' :: (w ++ txt)) (by simpa using hst) hb h0
      (by simp)
    rw [e2, jNext_ws (st := { st with cur := c' }) e1 (by decide)]
    exact ih (st := { st with cur := c'.next jcol }) (by simp [e1])
  | @block b w hb h0 _ ih =>
    have h1 : (st.cur.next jcol).txt = '*' :: (b ++ '*' :: '/' :: (w ++ txt)) := by simp [hst]
    have hch : (st.cur.next jcol).ch = '*' := Cur.ch_cons h1
    obtain ⟨c', e1, e2⟩ := jBlock_run b '*' (w ++ txt) (st.cur.next jcol).line (st.cur.next jcol).col hb h0
    have : jNext fl st = jNext fl { st with cur := c' } := by
      refine jNext_via ?_ ?_
      · rw [e2, hst]; simp; omega
      · intro n
        rw [jSkip_slash (by simpa using hst), hch, if_neg (by decide), if_pos rfl, h1, e1]
    rw [this]
    exact ih (st := { st with cur := c' }) e2

/-- Layout does not continue a number or a word. -/
theorem LayoutEnd.head {w} (h : LayoutEnd w) {c : Char} (hc : w.head? = some c) :
    c = ' ' ∨ c = '\n' ∨ c = '\r' ∨ c = '\t' ∨ c = '/' := by
  have key : ∀ {w}, Layout w → ∀ {c : Char}, w.head? = some c → c = ' ' ∨ c = '\n' ∨ c = '\r' ∨ c = '\t' ∨ c = '/' := by
    intro w h c hc
    cases h with
    | nil => simp at hc
    | space h _ => simp at hc; subst hc; rcases h with rfl | rfl | rfl | rfl <;> simp
    | line _ _ _ => simp at hc; simp [← hc]
    | block _ _ _ => simp at hc; simp [← hc]
  rcases h with h | ⟨a, b, ha, _, _, rfl⟩
  · exact key h hc
  · cases a with
    | nil => simp at hc; simp [← hc]
    | cons x a => exact key ha (by simpa using hc)

theorem LayoutEnd.stopNum {w} (h : LayoutEnd w) : ∀ c, w.head? = some c → c ∉ numCont := by
  intro c hc
  rcases h.head hc with rfl | rfl | rfl | rfl | rfl <;> decide

/-- A number alone in a text. -/
theorem num_text {w s w' : List Char} {t : Num} (h1 : Layout w) (hs : NumLit fl s t) (h2 : LayoutEnd w') :
    JText fl (.num t) (w ++ s ++ w') := by
  refine ⟨w', h2, ?_⟩
  simp only [JTree.lexemes]
  exact .cons h1 (.num hs) h2.stopNum .nil

/-- If the first token cannot be read the whole text is rejected. -/
theorem rejects_first {t : Ty} {w txt : List Char} (h1 : Layout w)
    (h : ∀ st : PSt, st.cur.txt = txt → ∃ e s, jNext fl st = .err e s) :
    Rejects (fun n => deserializeJson env fl n t (w ++ txt)) := by
  refine ⟨0, fun n _ => ?_⟩
  obtain ⟨c', e1, e2⟩ := h1.skip (fl := fl) (st := initSt jcol (w ++ txt)) (txt := txt) (by simp [initSt])
  obtain ⟨e, s, h3⟩ := h { initSt jcol (w ++ txt) with cur := c' } e1
  refine ⟨e, s, ?_⟩
  show (do jNext fl; deJson env fl n t : PM Val) _ = _
  rw [M.bind_def, e2, h3]

/-- A number token that cannot be parsed. -/
theorem badNum_first {x : Char} {r : List Char} (hx : x = '-' ∨ x = '+' ∨ isDig x = true)
    (h : ∀ c : Cur, c.txt = x :: r → ∃ c', lexNum jcol fl c = (none, c')) :
    ∀ st : PSt, st.cur.txt = x :: r → ∃ e s, jNext fl st = .err e s := by
  intro st hst
  have hf := numHead_facts hx
  have hp : jPunct x = none := by
    rcases hx with rfl | rfl | hx
    · decide
    · decide
    · rcases isDig_cases hx with e | e | e | e | e | e | e | e | e | e <;> subst e <;> decide
  rw [jNext_start hst hf.1 hf.2.1]
  have := Cur.ch_cons hst
  obtain ⟨c', h'⟩ := h st.cur hst
  simp only [jTok, this, if_neg hf.2.2.1, hp, if_pos hx, h']
  exact ⟨_, _, rfl⟩

/-- An integer literal outside the range of its token. -/
theorem badInt_first {sg ds tail : List Char} (hsg : sg = [] ∨ sg = ['-'] ∨ sg = ['+']) (hne : ds ≠ [])
    (hds : Digits ds) (ht : ∀ c, tail.head? = some c → c ∉ numCont)
    (hbad : if sg = ['-'] then 2 ^ 63 < decimal ds else u64Max < decimal ds) :
    ∀ st : PSt, st.cur.txt = sg ++ ds ++ tail → ∃ e s, jNext fl st = .err e s := by
  obtain ⟨x, r, e, hx⟩ : ∃ x r, sg ++ ds ++ tail = x :: r ∧ (x = '-' ∨ x = '+' ∨ isDig x = true) := by
    rcases hsg with rfl | rfl | rfl
    · obtain ⟨d, ds', rfl⟩ := List.exists_cons_of_ne_nil hne
      exact ⟨d, _, rfl, .inr (.inr (digits_isDig hds d (by simp)))⟩
    · exact ⟨_, _, rfl, .inl rfl⟩
    · exact ⟨_, _, rfl, .inr (.inl rfl)⟩
  rw [e]
  refine badNum_first hx fun c hc => ?_
  rw [← e] at hc
  obtain ⟨c', _, h'⟩ := lexNum_int (k := jcol) (fl := fl) hc hsg (digits_isDig hds) (fun _ => hne) (stopNum ht)
  refine ⟨c', h'.trans ?_⟩
  congr 1
  split at hbad
  · rename_i h
    rw [if_pos h, parseI64, if_neg hne, digitsVal_decimal, if_neg (by omega)]
  · rename_i h
    rw [if_neg h, parseU64, if_neg hne, digitsVal_decimal, if_neg (by omega)]

end NS
