import Verif.Lemmas.JsonLayout
import Verif.Props.JsonShapes
/-! # Property C23: JSON layout is irrelevant -/
namespace NS
variable {env : Env} {fl : FloatOps}

/-- **C23**: two texts with the same tokens, whatever the white space and comments between them, give
the same result at every type: the same value, an error for the same reason, or neither.  The texts
need not be well-formed: after the lexemes `ls` any common rest may follow. -/
theorem C23_json_layout {txt txt' : List Char} (h : SameTokens fl txt txt') (t : Ty) :
    SameResult (fun n => deserializeJson env fl n t txt) (fun n => deserializeJson env fl n t txt') :=
  json_layout h t

/-- **C23**: in particular layout in front of any text does not matter, nor layout after a document. -/
theorem C23_json_layout_around (txt : List Char) {w w' : List Char} (hw : Layout w) (hw' : Layout w') (t : Ty) :
    SameResult (fun n => deserializeJson env fl n t (w ++ txt)) (fun n => deserializeJson env fl n t (w' ++ txt)) :=
  json_layout ⟨[], w ++ txt, w' ++ txt, .nil, .nil, .inl ⟨w, w', txt, hw, hw', rfl, rfl⟩⟩ t

/-- C23: `[1,true]` and `[ /* n */ 1 ,⏎ // c⏎ true]`, followed by the unreadable rest `@`. -/
example : SameTokens toyFloat (chars "[1,true]@") (chars "[ /* n */ 1 ,\n // c\n true] @") := by
  refine ⟨[.punct .blockOpen, .num (.nat 1), .punct .comma, .word (chars "true"), .punct .blockClose], chars "@",
    chars " @", ?_, ?_, .inl ⟨[], chars " ", chars "@", .nil, .space (.inl rfl) .nil, rfl, rfl⟩⟩
  · exact JDoc.cons (w := []) (s := ['[']) .nil .blockOpen trivial <|
      JDoc.cons (w := []) (s := ['1']) .nil (.num (NumLit.nat (sg := []) (ds := ['1']) (.inl rfl) (by decide) (by intro c hc; simp at hc; subst hc; decide) (by decide)))
        (by intro c hc; simp at hc; subst hc; decide) <|
      JDoc.cons (w := []) (s := [',']) .nil .comma trivial <|
      JDoc.cons (w := []) (s := ['t', 'r', 'u', 'e']) .nil .true (by intro c hc; simp at hc; subst hc; decide) <|
      JDoc.cons (w := []) (s := [']']) .nil .blockClose trivial .nil
  · exact JDoc.cons (w := []) (s := ['[']) .nil .blockOpen trivial <|
      JDoc.cons (w := chars " /* n */ ") (s := ['1'])
        (.space (.inl rfl) (.block (b := chars " n ") (by decide) (by decide) (.space (.inl rfl) .nil)))
        (.num (NumLit.nat (sg := []) (ds := ['1']) (.inl rfl) (by decide) (by intro c hc; simp at hc; subst hc; decide) (by decide)))
        (by intro c hc; simp at hc; subst hc; decide) <|
      JDoc.cons (w := [' ']) (s := [',']) (.space (.inl rfl) .nil) .comma trivial <|
      JDoc.cons (w := chars "\n // c\n ") (s := ['t', 'r', 'u', 'e'])
        (.space (.inr (.inl rfl)) (.space (.inl rfl) (.line (b := chars " c") (by decide) (by decide) (.space (.inl rfl) .nil))))
        .true (by intro c hc; simp at hc; subst hc; decide) <|
      JDoc.cons (w := []) (s := [']']) .nil .blockClose trivial .nil

end NS
