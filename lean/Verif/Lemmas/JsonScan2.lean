import Verif.Lemmas.JsonScan
import Verif.Lemmas.RonScan2
/-! The JSON lexer reads every sequence of spellings. -/
namespace NS
variable {fl : FloatOps}
namespace Json

theorem tok_num' {s m tail} (h : NumLit fl s m) (ht : ∀ x, tail.head? = some x → JLongest (.num m) s x) :
    TokAt (jNext fl) (s ++ tail) m.tok tail none none := by
  intro st hst
  obtain ⟨⟨c', h1, h2⟩, _, _⟩ := lexNum_complete (k := jcol) (.inl h) hst ht
  obtain ⟨y, r, e, hx⟩ := h.head
  refine ⟨c', h1, ?_⟩
  have hf := numHead_facts hx
  have hp : jPunct y = none := by
    rcases hx with rfl | rfl | hx
    · decide
    · decide
    · rcases isDig_cases hx with e | e | e | e | e | e | e | e | e | e <;> subst e <;> decide
  have e' : st.cur.txt = y :: (r ++ tail) := by rw [hst, e]; rfl
  rw [jNext_start e' hf.1 hf.2.1]
  have := Cur.ch_cons e'
  simp only [jTok, this, if_neg hf.2.2.1, hp, if_pos hx, h2]
  rfl

theorem tok_spell {l s r} (h : JSpell fl l s) (hr : ∀ c, r.head? = some c → JLongest l s c) :
    TokAt (jNext fl) (s ++ r) (jtok l) r l.sb l.ib := by
  cases h with
  | num h => exact tok_num' h hr
  | true => exact JSpell.tokAt .true hr
  | false => exact JSpell.tokAt .false hr
  | null => exact JSpell.tokAt .null hr
  | str h => exact JSpell.tokAt (.str h) trivial
  | _ => exact JSpell.tokAt (by constructor) trivial

theorem short {txt t rest sb ib} (ht : TokAt (jNext fl) txt t rest sb ib) :
    TokAt (jNext fl) ('/' :: '*' :: '/' :: txt) t rest sb ib := by
  intro st hst
  have h1 : (st.cur.next jcol).txt = '*' :: '/' :: txt := by simp [hst]
  have hch : (st.cur.next jcol).ch = '*' := Cur.ch_cons h1
  obtain ⟨c', e1, e2⟩ : ∃ c', jBlock ('*' :: '/' :: txt) '*' (st.cur.next jcol).line (st.cur.next jcol).col = (true, c') ∧ c'.txt = txt := by
    have e3 : ('/' : Char) ≠ '\x00' := by decide
    simp only [jBlock, if_neg e3, and_self, if_true]
    exact ⟨_, rfl, by simp⟩
  have : jNext fl st = jNext fl { st with cur := c' } := by
    refine jNext_via ?_ ?_
    · rw [e2, hst]; simp; omega
    · intro n
      rw [jSkip_slash (by simpa using hst), hch, if_neg (by decide), if_pos rfl, h1, e1]
  rw [this]
  exact ht _ e2

theorem jlayout {w} (h : JLayout w) {txt t rest sb ib} (ht : TokAt (jNext fl) txt t rest sb ib) :
    TokAt (jNext fl) (w ++ txt) t rest sb ib := by
  induction h with
  | nil => exact ht
  | @space c w hc _ ih => exact Layout.tokAt (.space hc .nil) ih
  | @line b w h1 h2 _ ih => simpa using Layout.tokAt (.line h1 h2 .nil) ih
  | @block b w h1 h2 _ ih => simpa using Layout.tokAt (.block h1 h2 .nil) ih
  | short _ ih => exact short ih

/-- The end of the text or a NUL. -/
theorem tok_fin {r : List Char} (h : r = [] ∨ r.head? = some '\x00') : TokAt (jNext fl) r .eof r none none := by
  rcases h with rfl | h
  · exact jTok_end
  · cases r with
    | nil => cases h
    | cons x r =>
      simp at h
      subst h
      intro st hst
      refine ⟨st.cur, hst, ?_⟩
      rw [jNext_start hst (by decide) (by decide)]
      simp [jTok, Cur.ch_cons hst]

theorem jscanEnd {txt} (h : JScanEnd txt) : ∃ r, TokAt (jNext fl) txt .eof r none none := by
  obtain ⟨w, e, r, rfl, hw, he, hr⟩ := h
  refine ⟨r, ?_⟩
  rw [List.append_assoc]
  refine jlayout hw ?_
  have fin := tok_fin (fl := fl) hr
  rcases he with rfl | ⟨b, rfl, h1, h2⟩
  · exact fin
  · intro st hst
    have g1 : (st.cur.next jcol).txt = ('/' :: b) ++ r := by simp [hst]
    obtain ⟨q1, q2⟩ := span_run (k := jcol) (p := fun x => x ≠ '\n' && x ≠ '\x00') g1
      (by
        intro x hx
        rcases List.mem_cons.1 hx with rfl | hx
        · decide
        · have a1 : x ≠ '\n' := fun e => h1 (e ▸ hx)
          have a2 : x ≠ '\x00' := fun e => h2 (e ▸ hx)
          simp [a1, a2])
      (by
        intro x t e
        rcases hr with rfl | hr
        · cases e
        · rw [e] at hr; simp at hr; subst hr; decide)
    have : jNext fl st = jNext fl { st with cur := ((st.cur.next jcol).span jcol fun x => x ≠ '\n' && x ≠ '\x00').2 } := by
      refine jNext_via ?_ fun n => ?_
      · rw [q2, hst]; simp; omega
      · rw [jSkip_slash (by simpa using hst), if_pos (Cur.ch_cons (by simpa using g1))]
    rw [this]
    exact fin _ q2

end Json

theorem JScan.stream {ls txt rest} (h : JScan fl ls txt rest) : Stream (jNext fl) jtok txt ls rest := by
  induction h with
  | nil => exact .nil
  | cons h1 h2 h3 _ ih =>
    refine .cons ?_ ih
    rw [List.append_assoc]
    exact Json.jlayout h1 (Json.tok_spell h2 h3)

theorem JWhole.stream {ls txt} (h : JWhole fl ls txt) : ∃ r, Stream (jNext fl) jtok txt (ls ++ [.eof]) r := by
  obtain ⟨rest, h1, h2⟩ := h
  obtain ⟨r, h2⟩ := Json.jscanEnd (fl := fl) h2
  exact ⟨r, h1.stream.append (.cons h2 .nil)⟩

end NS
