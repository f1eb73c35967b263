import Verif.Lemmas.JsonPos
import Verif.Props.JsonShapes
/-! # Property C33: positions in JSON errors -/
namespace NS
variable {env : Env} {fl : FloatOps}

/-- **C33**: the position in an error is that of some initial part `rd` of the input: the line is the
number of newlines in it, the column the number of characters after the last of them. -/
theorem C33_json_error_position {n : Nat} {t : Ty} {input : List Char} {e s}
    (he : deserializeJson env fl n t input = .err e s) :
    ∃ rd rest, input = rd ++ rest ∧ e.line = newlines rd ∧ e.col = sinceNewline rd := by
  have h := deserializeJson_pos (env := env) (fl := fl) n t input
  rw [he] at h
  rcases h with h | h
  · exact h.elim
  obtain ⟨⟨_, c, _, ⟨_, pre, h1, h2, h3⟩, h4, h5, _⟩, _⟩ := h
  refine ⟨pre ++ c.txt.take 1, c.txt.drop 1, ?_, by rw [h4, h2], by rw [h5, h3]⟩
  rw [List.append_assoc, List.take_append_drop]; exact h1

/-- **C33**: in a program without built-in tuples, `rd` is everything read when the error was
detected, up to and including the current character: what remains is what the reader has not yet
looked at.  (After an element of a built-in tuple has failed, the reader goes on to the next comma, so
there the reported position can lie before the place where reading stopped.) -/
theorem C33_json_error_position_exact (h : NoTuples env) {t : Ty} (ht : noTuple t = true) {n : Nat} {input : List Char}
    {e s} (he : deserializeJson env fl n t input = .err e s) :
    ∃ rd, input = rd ++ s.cur.txt.drop 1 ∧ e.line = newlines rd ∧ e.col = sinceNewline rd := by
  have hx := deserializeJson_exact h ht he
  have h := deserializeJson_pos (env := env) (fl := fl) n t input
  rw [he] at h
  rcases h with h | h
  · exact h.elim
  obtain ⟨_, ⟨_, pre, h1, h2, h3⟩, _⟩ := h
  refine ⟨pre ++ s.cur.txt.take 1, ?_, by rw [hx.1, h2], by rw [hx.2, h3]⟩
  rw [List.append_assoc, List.take_append_drop]; exact h1

/-- C33: in `[1,⏎ 2 x]` the word `x` is unexpected; it ends at the fifth character of line 1. -/
example : ∃ e s, deserializeJson exJEnv toyFloat 9 (.vec (.int .u8)) (chars "[1,\n 2 x]") = .err e s ∧ e.line = 1 ∧
    e.col = 5 ∧ s.cur.txt = [']'] := by
  obtain ⟨e, s, h, g⟩ := Out.errSat_spec (o := deserializeJson exJEnv toyFloat 9 (.vec (.int .u8)) (chars "[1,\n 2 x]"))
    (f := fun e s => e.line == 1 && e.col == 5 && s.cur.txt == [']']) (by decide +kernel)
  simp only [Bool.and_eq_true, beq_iff_eq] at g
  exact ⟨e, s, h, g.1.1, g.1.2, g.2⟩

/-- C33: the restriction on tuples is needed: at `[,⏎1]` read as `(u8, u8)` the error is about the
first comma, and the reader stops one token later. -/
example : ∃ e s, deserializeJson exJEnv toyFloat 9 (.pair (.int .u8) (.int .u8)) (chars "[,\n1]") = .err e s ∧
    e.line = 1 ∧ e.col = 0 ∧ s.cur.txt = [']'] ∧ s.cur.col = 2 := by
  obtain ⟨e, s, h, g⟩ := Out.errSat_spec
    (o := deserializeJson exJEnv toyFloat 9 (.pair (.int .u8) (.int .u8)) (chars "[,\n1]"))
    (f := fun e s => e.line == 1 && e.col == 0 && s.cur.txt == [']'] && s.cur.col == 2) (by decide +kernel)
  simp only [Bool.and_eq_true, beq_iff_eq] at g
  exact ⟨e, s, h, g.1.1.1, g.1.1.2, g.1.2, g.2⟩

end NS
