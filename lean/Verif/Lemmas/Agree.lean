import Verif.Lemmas.LexDoc
import Verif.Lemmas.Monad
/-! Positions in a lexeme stream and the token helpers, shared by JSON and RON. -/
namespace NS

/-- Reading stands at the first of the lexemes `ls`. -/
def Pos (nx : PM Unit) (tk : Lexeme → Tok) (st : PSt) (ls : List Lexeme) (tail : List Char) : Prop :=
  match ls with
  | [] => False
  | l :: ls => At' nx tk st l ls tail

theorem Pos.tok {nx tk st l ls tail} (h : Pos nx tk st (l :: ls) tail) : st.tok = tk l := At'.tok h

theorem Pos.next {nx tk st l l' ls tail} (h : Pos nx tk st (l :: l' :: ls) tail) :
    ∃ st', nx st = .ok () st' ∧ Pos nx tk st' (l' :: ls) tail ∧
      st'.strbuf = l'.sb.getD st.strbuf ∧ st'.identbuf = l'.ib.getD st.identbuf :=
  At'.next h

/-- As `Pos.next`, for an unspecified non-empty continuation. -/
theorem Pos.next' {nx tk st l ls tail} (h : Pos nx tk st (l :: ls) tail) (hne : ls ≠ []) :
    ∃ st', nx st = .ok () st' ∧ Pos nx tk st' ls tail := by
  cases ls with
  | nil => exact absurd rfl hne
  | cons l' ls =>
    obtain ⟨st', h1, h2, _⟩ := h.next
    exact ⟨st', h1, h2⟩

/-- Positions do not depend on the string buffer unless the token is a string. -/
theorem Pos.setStr {nx tk st l ls tail} (h : Pos nx tk st (l :: ls) tail) (hl : ∀ s, l ≠ .str s) (b : List Char) :
    Pos nx tk { st with strbuf := b } (l :: ls) tail := by
  have h' : At' nx tk st l ls tail := h
  exact ⟨h.tok, fun s hs => by cases l <;> simp [Lexeme.sb] at hs hl, fun s hs => h'.ib s hs, h'.rest⟩

variable {nx : PM Unit} {tk : Lexeme → Tok}

theorem expectTok_ok {st t what} (h : st.tok = t) : expectTok nx t what st = nx st := by
  show (if st.tok = t then nx else errToken what) st = _
  rw [if_pos h]

theorem expectTok_err {st t what} (h : st.tok ≠ t) : ∃ e, expectTok nx t what st = .err e st := by
  refine ⟨⟨st.cur.line, st.cur.col, .unexpectedToken st.tok what.toList⟩, ?_⟩
  show (if st.tok = t then nx else errToken what) st = _
  rw [if_neg h]
  rfl

theorem eatComma_comma {st close what} (h : st.tok = .comma) : eatComma nx close what st = nx st := by
  show (if st.tok = .comma then nx else if st.tok = close then Pure.pure () else errToken what) st = _
  rw [if_pos h]

theorem eatComma_close {st close what} (h : st.tok = close) (hc : close ≠ .comma) :
    eatComma nx close what st = .ok () st := by
  show (if st.tok = .comma then nx else if st.tok = close then Pure.pure () else errToken what) st = _
  rw [if_neg (by rw [h]; exact hc), if_pos h]
  rfl

theorem eatComma_err {st close what} (h : st.tok ≠ close) (h' : st.tok ≠ .comma) :
    ∃ e, eatComma nx close what st = .err e st := by
  refine ⟨⟨st.cur.line, st.cur.col, .unexpectedToken st.tok what.toList⟩, ?_⟩
  show (if st.tok = .comma then nx else if st.tok = close then Pure.pure () else errToken what) st = _
  rw [if_neg h', if_neg h]
  rfl

/-- `nx` returns `Ok` or `Err`. -/
def Tame (nx : PM Unit) : Prop := ∀ st, (∃ s, nx st = .ok () s) ∨ ∃ e s, nx st = .err e s

theorem eatComma_tame (hn : Tame nx) (close what st) :
    (∃ s, eatComma nx close what st = .ok () s) ∨ ∃ e s, eatComma nx close what st = .err e s := by
  by_cases h1 : st.tok = .comma
  · rw [eatComma_comma h1]; exact hn st
  · by_cases h2 : st.tok = close
    · rw [eatComma_close h2 (by rw [← h2]; exact h1)]; exact .inl ⟨_, rfl⟩
    · obtain ⟨e, h⟩ := eatComma_err (nx := nx) (what := what) h2 h1
      exact .inr ⟨e, st, h⟩

end NS
