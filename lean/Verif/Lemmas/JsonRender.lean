import Verif.Lemmas.JsonDen
import Verif.Lemmas.JsonText
/-! Spaced-out texts of trees, for concrete examples. -/
namespace NS
variable {fl : FloatOps}

/-- A plain spelling of a lexeme. -/
def Lexeme.canon : Lexeme → Option (List Char)
  | .punct .colon => some [':']
  | .punct .comma => some [',']
  | .punct .blockOpen => some ['[']
  | .punct .blockClose => some [']']
  | .punct .curlyOpen => some ['{']
  | .punct .curlyClose => some ['}']
  | .word w =>
    if w = ['t', 'r', 'u', 'e'] ∨ w = ['f', 'a', 'l', 's', 'e'] ∨ w = ['n', 'u', 'l', 'l'] then some w else none
  | .num (.nat n) => if n ≤ u64Max then some (showNat n) else none
  | .str s => if s.all fun c => c != '"' && c != '\\' && c != '\x00' then some ('"' :: (s ++ ['"'])) else none
  | _ => none

/-- A blank before every lexeme. -/
def spaced : List Lexeme → Option (List Char)
  | [] => some []
  | l :: ls => match l.canon, spaced ls with
    | some s, some r => some (' ' :: (s ++ r))
    | _, _ => none

theorem Lexeme.canon_spell {l : Lexeme} {s} (h : l.canon = some s) : JSpell fl l s := by
  cases l with
  | punct t => cases t <;> simp [canon] at h <;> subst h <;> constructor
  | num t =>
    cases t with
    | nat n =>
      simp [canon] at h
      obtain ⟨h, rfl⟩ := h
      exact .num (showNat_lit h)
    | _ => simp [canon] at h
  | word w =>
    simp only [canon] at h
    split at h
    · rename_i hw
      injection h with h
      subst h
      rcases hw with rfl | rfl | rfl <;> constructor
    · cases h
  | str s =>
    simp only [canon] at h
    split at h
    · rename_i hs
      injection h with h
      subst h
      refine .str (plainName_lit ?_)
      intro c hc
      simpa [and_assoc] using List.all_eq_true.1 hs c hc
    · cases h
  | eof => simp [canon] at h

theorem spaced_doc {ls txt} (h : spaced ls = some txt) : JDoc fl ls txt [] ∧ ∀ c, txt.head? = some c → c = ' ' := by
  induction ls generalizing txt with
  | nil => simp [spaced] at h; subst h; exact ⟨.nil, by simp⟩
  | cons l ls ih =>
    simp only [spaced] at h
    split at h
    · rename_i s r hs hr
      injection h with h
      subst h
      obtain ⟨h1, h2⟩ := ih hr
      refine ⟨JDoc.cons (w := [' ']) (.space (.inl rfl) .nil) (Lexeme.canon_spell hs) ?_ h1, by simp⟩
      unfold JSep
      split
      · intro c hc; rw [h2 c hc]; decide
      · intro c hc; rw [h2 c hc]; decide
      · trivial
    · cases h

/-- A concrete text of a concrete tree. -/
theorem jtext_spaced {J : JTree} {txt} (ls : List Lexeme) (hl : J.lexemes = ls) (h : spaced ls = some txt) : JText fl J txt := by
  refine ⟨[], .inl .nil, ?_⟩
  rw [hl]
  exact (spaced_doc h).1

end NS
