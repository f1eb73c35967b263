import Verif.Lemmas.RonLayout
import Verif.Lemmas.RonRender
import Verif.Props.RonObjects
/-! # Property C41: RON layout is irrelevant -/
namespace NS
variable {env : Env} {fl : FloatOps}

/-- **C41**: two texts with the same tokens, whatever the white space and comments between them, give
the same result at every type: the same value, an error for the same reason, or neither.  The texts
need not be well-formed: after the lexemes any common rest may follow. -/
theorem C41_ron_layout {txt txt' : List Char} (h : RSameTokens fl txt txt') (t : Ty) :
    SameResult (fun n => deserializeRon env fl n t txt) (fun n => deserializeRon env fl n t txt') :=
  ron_layout h t

/-- **C41**: in particular layout in front of any text does not matter. -/
theorem C41_ron_layout_around (txt : List Char) {w w' : List Char} (hw : Layout w) (hw' : Layout w') (t : Ty) :
    SameResult (fun n => deserializeRon env fl n t (w ++ txt)) (fun n => deserializeRon env fl n t (w' ++ txt)) :=
  ron_layout ⟨[], w ++ txt, w' ++ txt, .nil, .nil, .inl ⟨w, w', txt, hw, hw', rfl, rfl⟩⟩ t

/-- C41: `(n:1)` and `( /* n */ n:⏎ // c⏎ 1)`, followed by the unreadable rest `@`. -/
example : RSameTokens toyFloat (chars "(n:1)@") (chars "( /* n */ n:\n // c\n 1) @") := by
  have hn : RWord (chars "n") := ⟨'n', [], rfl, .inl (by decide), by simp⟩
  have hc' : ∀ c, some ':' = some c → ¬ IdCont c := by
    intro c hc; cases hc; unfold IdCont IdStart; decide
  refine ⟨[.punct .parenOpen, .word (chars "n"), .punct .colon, .num (.nat 1), .punct .parenClose], chars "@",
    chars " @", ?_, ?_, .inl ⟨[], chars " ", chars "@", .nil, .space (.inl rfl) .nil, rfl, rfl⟩⟩
  · exact RDoc.cons (w := []) (s := ['(']) .nil .parenOpen trivial <|
      RDoc.cons (w := []) (s := chars "n") .nil (.word hn) (fun c hc => hc' c (by exact hc)) <|
      RDoc.cons (w := []) (s := [':']) .nil .colon trivial <|
      RDoc.cons (w := []) (s := ['1']) .nil (.num (NumLit.nat (sg := []) (ds := ['1']) (.inl rfl) (by decide) (by intro c hc; simp at hc; subst hc; decide) (by decide)))
        (by intro c hc; simp at hc; subst hc; decide) <|
      RDoc.cons (w := []) (s := [')']) .nil .parenClose trivial .nil
  · exact RDoc.cons (w := []) (s := ['(']) .nil .parenOpen trivial <|
      RDoc.cons (w := chars " /* n */ ") (s := chars "n")
        (.space (.inl rfl) (.block (b := chars " n ") (by decide) (by decide) (.space (.inl rfl) .nil)))
        (.word hn) (fun c hc => hc' c (by exact hc)) <|
      RDoc.cons (w := []) (s := [':']) .nil .colon trivial <|
      RDoc.cons (w := chars "\n // c\n ") (s := ['1'])
        (.space (.inr (.inl rfl)) (.space (.inl rfl) (.line (b := chars " c") (by decide) (by decide) (.space (.inl rfl) .nil))))
        (.num (NumLit.nat (sg := []) (ds := ['1']) (.inl rfl) (by decide) (by intro c hc; simp at hc; subst hc; decide) (by decide)))
        (by intro c hc; simp at hc; subst hc; decide) <|
      RDoc.cons (w := []) (s := [')']) .nil .parenClose trivial .nil

end NS
