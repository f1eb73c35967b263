import Verif.Lemmas.RonLayout
/-! Character literals and unterminated block comments are skipped by the RON lexer. -/
namespace NS
variable {env : Env} {fl : FloatOps}

namespace Ron

theorem next_viaTok {st : PSt} {c' : Cur} {tk : Tok} (hl : c'.txt.length < st.cur.txt.length)
    (h : ∀ n, rSkip (n + 1) st = rSkip n { st with cur := c', tok := tk }) :
    rNext fl st = rNext fl { st with cur := c', tok := tk } := by
  rw [next_eq fl st (st.cur.txt.length + 1) (by omega), h,
    next_eq fl { st with cur := c', tok := tk } st.cur.txt.length hl]

theorem charLit {b : List Char} {txt : List Char} {c : Char}
    (hb : (b = [c] ∧ c ≠ '\\') ∨ b = ['\\', c]) {t rest sb ib} (ht : TokAt (rNext fl) txt t rest sb ib) :
    TokAt (rNext fl) ('\'' :: (b ++ '\'' :: txt)) t rest sb ib := by
  intro st hst
  have hs : (st.cur.span rcol isWs).2 = st.cur := by
    rw [Cur.span_stop]; intro y r e; rw [hst] at e; injection e with e1; rw [← e1]; decide
  have e0 := Cur.ch_cons hst
  have key : ∃ c2 : Cur, c2.txt = c :: '\'' :: txt ∧
      (if (st.cur.next rcol).ch = '\\' then (st.cur.next rcol).next rcol else st.cur.next rcol) = c2 := by
    rcases hb with ⟨rfl, hc⟩ | rfl
    · have h1 : (st.cur.next rcol).txt = c :: '\'' :: txt := by simp [hst]
      exact ⟨_, h1, by rw [Cur.ch_cons h1, if_neg hc]⟩
    · have h1 : (st.cur.next rcol).txt = '\\' :: c :: '\'' :: txt := by simp [hst]
      exact ⟨(st.cur.next rcol).next rcol, by rw [Cur.next_txt, h1]; rfl, by rw [Cur.ch_cons h1, if_pos rfl]⟩
  obtain ⟨c2, k1, k2⟩ := key
  have h3 : (c2.next rcol).txt = '\'' :: txt := by simp [k1]
  have h4 : ((c2.next rcol).next rcol).txt = txt := by rw [Cur.next_txt, h3]; rfl
  have : rNext fl st = rNext fl { st with cur := (c2.next rcol).next rcol, tok := .char c2.ch } := by
    refine next_viaTok ?_ fun n => ?_
    · rw [h4, hst]; simp; omega
    · have e1 : ('\'' : Char) ≠ '/' := by decide
      rw [rSkip]
      simp only [hs, e0, if_neg e1, if_true, k2, Cur.ch_cons h3, ne_eq, not_true, if_false]
  rw [this]
  exact ht { st with cur := (c2.next rcol).next rcol, tok := .char c2.ch } h4

theorem layoutX {w} (h : LayoutX w) {txt t rest sb ib} (ht : TokAt (rNext fl) txt t rest sb ib) :
    TokAt (rNext fl) (w ++ txt) t rest sb ib := by
  induction h with
  | nil => exact ht
  | layout ha _ ih => rw [List.append_assoc]; exact layout ha ih
  | @char c w hc _ ih => exact charLit (b := [c]) (.inl ⟨rfl, hc⟩) ih
  | @escaped c w _ ih => exact charLit (b := ['\\', c]) (.inr rfl) ih

theorem block_open (b : List Char) : ∀ (x : Char) (l c : Nat), ¬ ['*', '/'] <:+: x :: b → '\x00' ∉ b →
    (rBlock b (x == '*') l c).txt = [] := by
  induction b with
  | nil => intro x l c _ _; simp [rBlock]
  | cons y b ih =>
    intro x l c hx h0
    have hy : y ≠ '\x00' := by intro e; exact h0 (by simp [e])
    have hxy : ¬ (y = '/' ∧ (x == '*') = true) := by
      rintro ⟨rfl, h⟩
      simp only [beq_iff_eq] at h
      subst h
      exact hx ⟨[], b, rfl⟩
    have := ih y ((Cur.mk (y :: b) l c).next rcol).line ((Cur.mk (y :: b) l c).next rcol).col
      (by
        rintro ⟨p, q, e⟩
        exact hx ⟨x :: p, q, by rw [← e]; simp⟩)
      (by intro h; exact h0 (by simp [h]))
    simp only [rBlock, if_neg hy, if_neg hxy]
    exact this

theorem layoutEndX {w} (h : LayoutEndX w) : TokAt (rNext fl) w .eof [] none none := by
  rcases h with ⟨a, b, ha, hb, rfl⟩ | ⟨a, b, ha, rfl, hb, h0⟩
  · exact layoutX ha (layoutEnd hb)
  · refine layoutX ha ?_
    intro st hst
    have h1 : (st.cur.next rcol).txt = '*' :: b := by simp [hst]
    have hch : (st.cur.next rcol).ch = '*' := Cur.ch_cons h1
    have e2 : (rBlock (st.cur.next rcol).txt false (st.cur.next rcol).line (st.cur.next rcol).col).txt = [] := by
      rw [h1]
      have e1 : ('*' : Char) ≠ '/' := by decide
      have e3 : ('*' : Char) ≠ '\x00' := by decide
      simp only [rBlock, if_neg e3, e1, false_and, if_false]
      exact block_open b '*' _ _ hb h0
    have : rNext fl st = rNext fl { st with cur := rBlock (st.cur.next rcol).txt false (st.cur.next rcol).line (st.cur.next rcol).col } := by
      refine next_via ?_ ?_
      · rw [e2, hst]; simp
      · intro n
        rw [skip_slash (by simpa using hst), hch, if_neg (by decide), if_pos rfl]
    rw [this]
    exact tok_end { st with cur := _ } e2

end Ron

theorem Layout.toX {w} (h : Layout w) : LayoutX w := by
  have := LayoutX.layout h .nil
  simpa using this

theorem RDoc.toX {ls txt tail} (h : RDoc fl ls txt tail) : RDocX fl ls txt tail := by
  induction h with
  | nil => exact .nil
  | cons h1 h2 h3 _ ih => exact .cons h1.toX h2 h3 ih

theorem RFull.toX {ls txt} (h : RFull fl ls txt) : RFullX fl ls txt := by
  obtain ⟨w, h1, h2⟩ := h
  exact ⟨w, .inl ⟨[], w, .nil, h1, rfl⟩, h2.toX⟩

/-- Two complete texts with the same lexemes, or two finished texts. -/
def SameX (fl : FloatOps) (a b : List Char) : Prop := ∃ ls, RFullX fl ls a ∧ RFullX fl ls b

theorem rNext_layoutX (fl : FloatOps) : Rel (docSim (SameX fl) True) (rNext fl) (rNext fl) := by
  rintro s s' ⟨⟨ls, ⟨w, hw, h1⟩, ⟨w', hw', h2⟩⟩, ht, hs, hi⟩
  cases ls with
  | cons l ls =>
    generalize e1 : s.cur.txt = a at h1
    generalize e2 : s'.cur.txt = b at h2
    cases h1 with
    | cons g1 g2 g3 h1' =>
    cases h2 with
    | cons g1' g2' g3' h2' =>
    obtain ⟨c, hc, e⟩ := Ron.layoutX g1 (g2.tokAt g3) s (by rw [e1, List.append_assoc])
    obtain ⟨c', hc', e'⟩ := Ron.layoutX g1' (g2'.tokAt g3') s' (by rw [e2, List.append_assoc])
    rw [e, e']
    refine ⟨rfl, ?_, rfl, ?_, ?_⟩
    · simp only [hc, hc']; exact ⟨ls, ⟨w, hw, h1'⟩, ⟨w', hw', h2'⟩⟩
    · simp [hs]
    · simp [hi]
  | nil =>
    have e1 : s.cur.txt = w := by generalize s.cur.txt = a at h1; cases h1; rfl
    have e2 : s'.cur.txt = w' := by generalize s'.cur.txt = a at h2; cases h2; rfl
    obtain ⟨c, hc, e⟩ := Ron.layoutEndX (fl := fl) hw s e1
    obtain ⟨c', hc', e'⟩ := Ron.layoutEndX (fl := fl) hw' s' e2
    rw [e, e']
    refine ⟨rfl, ?_, rfl, by simp [hs], by simp [hi]⟩
    simp only [hc, hc']
    have hn : RFullX fl [] [] := ⟨[], .inl ⟨[], [], .nil, .inl .nil, rfl⟩, .nil⟩
    exact ⟨[], hn, hn⟩

theorem ron_layoutX {txt txt' : List Char} (h : SameX fl txt txt') (t : Ty) :
    SameResult (fun n => deserializeRon env fl n t txt) (fun n => deserializeRon env fl n t txt') := by
  have key : ∀ {a b : List Char}, SameX fl a b → ∀ n m, n ≤ m →
      OutRel (docSim (SameX fl) True) (deserializeRon env fl n t a) (deserializeRon env fl m t b) := by
    intro a b h n m hnm
    refine Rel.bind (rNext_layoutX fl) (fun _ => deRon_rel env fl (rNext_layoutX fl) n m t hnm (.inl trivial)) _ _ ?_
    refine ⟨?_, rfl, rfl, rfl⟩
    rw [initSt_txt, initSt_txt]; exact h
  obtain ⟨ls, h1, h2⟩ := h
  exact sameResult_of (key ⟨ls, h1, h2⟩) (key ⟨ls, h2, h1⟩)

end NS
