import Verif.Lemmas.JsonRender
import Verif.Lemmas.RonLex
/-! Spaced-out RON texts, for concrete examples. -/
namespace NS
variable {fl : FloatOps}

/-- A plain RON spelling of a lexeme. -/
def Lexeme.rcanon : Lexeme → Option (List Char)
  | .punct .colon => some [':']
  | .punct .comma => some [',']
  | .punct .blockOpen => some ['[']
  | .punct .blockClose => some [']']
  | .punct .curlyOpen => some ['{']
  | .punct .curlyClose => some ['}']
  | .punct .parenOpen => some ['(']
  | .punct .parenClose => some [')']
  | .word (c :: r) => if isIdStart c ∧ r.all isIdChar then some (c :: r) else none
  | .num (.nat n) => if n ≤ u64Max then some (showNat n) else none
  | .str s => if s.all fun c => c != '"' && c != '\\' && c != '\x00' then some ('"' :: (s ++ ['"'])) else none
  | _ => none

/-- A blank before every lexeme. -/
def rspaced (tail : List Char) : List Lexeme → Option (List Char)
  | [] => some tail
  | l :: ls => match l.rcanon, rspaced tail ls with
    | some s, some r => some (' ' :: (s ++ r))
    | _, _ => none

theorem Lexeme.rcanon_spell {l : Lexeme} {s} (h : l.rcanon = some s) : RSpell fl l s := by
  cases l with
  | punct t => cases t <;> simp [rcanon] at h <;> subst h <;> constructor
  | num t =>
    cases t with
    | nat n =>
      simp [rcanon] at h
      obtain ⟨h, rfl⟩ := h
      exact .num (showNat_lit h)
    | _ => simp [rcanon] at h
  | word w =>
    cases w with
    | nil => simp [rcanon] at h
    | cons c r =>
      simp only [rcanon] at h
      split at h
      · rename_i hw
        injection h with h
        subst h
        exact .word ⟨c, r, rfl, (isIdStart_iff c).1 hw.1, fun d hd => (Ron.isIdChar_iff d).1 (List.all_eq_true.1 hw.2 d hd)⟩
      · cases h
  | str s =>
    simp only [rcanon] at h
    split at h
    · rename_i hs
      injection h with h
      subst h
      refine .str (plainName_lit ?_)
      intro c hc
      simpa [and_assoc] using List.all_eq_true.1 hs c hc
    · cases h
  | eof => simp [rcanon] at h

theorem rspaced_doc {ls tail txt} (ht : tail = [] ∨ ∃ r, tail = ' ' :: r) (h : rspaced tail ls = some txt) :
    RDoc fl ls txt tail ∧ ∀ c, txt.head? = some c → c = ' ' := by
  induction ls generalizing txt with
  | nil =>
    simp [rspaced] at h; subst h
    refine ⟨.nil, ?_⟩
    rcases ht with rfl | ⟨r, rfl⟩ <;> simp
  | cons l ls ih =>
    simp only [rspaced] at h
    split at h
    · rename_i s r hs hr
      injection h with h
      subst h
      obtain ⟨h1, h2⟩ := ih hr
      refine ⟨RDoc.cons (w := [' ']) (.space (.inl rfl) .nil) (Lexeme.rcanon_spell hs) ?_ h1, by simp⟩
      unfold RSep
      split
      · intro c hc; rw [h2 c hc]; decide
      · intro c hc; rw [h2 c hc]; unfold IdCont IdStart; decide
      · trivial
    · cases h

/-- A concrete text of a concrete tree. -/
theorem rtext_spaced {x : RTree} {txt} (ls : List Lexeme) (hl : x.lexemes = ls) (h : rspaced [] ls = some txt) : RText fl x txt := by
  refine ⟨[], .inl .nil, ?_⟩
  rw [hl]
  exact (rspaced_doc (.inl rfl) h).1

end NS
