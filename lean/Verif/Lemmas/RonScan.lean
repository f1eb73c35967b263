import Verif.Lemmas.JsonScan
import Verif.Lemmas.RonLayoutX
import Verif.Spec.RonWhole
/-! The RON lexer reads only lexemes: what it has read so far is a sequence of spellings; and it reads
every sequence of spellings. -/
namespace NS
variable {fl : FloatOps}

theorem RLayout.ws {b : List Char} (hb : ∀ x ∈ b, isWs x = true) {w : List Char} (h : RLayout w) : RLayout (b ++ w) := by
  induction b with
  | nil => exact h
  | cons x b ih =>
    refine .space ?_ (ih fun y hy => hb y (by simp [hy]))
    have := hb x (by simp)
    simp only [isWs, Bool.or_eq_true, beq_iff_eq] at this
    rcases this with ((h | h) | h) | h <;> simp [h]

theorem rBlock_sound (t : List Char) : ∀ (x : Char) (l c : Nat) (c' : Cur), rBlock t (x == '*') l c = c' →
    (x = '*' ∧ t = '/' :: c'.txt) ∨ (∃ b, t = b ++ '*' :: '/' :: c'.txt ∧ ¬ ['*', '/'] <:+: x :: b ∧ '\x00' ∉ b) ∨
      ∃ b, t = b ++ c'.txt ∧ ¬ ['*', '/'] <:+: x :: b ∧ '\x00' ∉ b ∧ c'.ch = '\x00' := by
  have one : ∀ x : Char, ¬ ['*', '/'] <:+: [x] := by
    rintro x ⟨p, q, e⟩
    have := congrArg List.length e
    simp at this
    omega
  induction t with
  | nil =>
    intro x l c c' h
    simp only [rBlock] at h
    subst h
    exact .inr (.inr ⟨[], rfl, one x, by simp, rfl⟩)
  | cons y t ih =>
    intro x l c c' h
    simp only [rBlock] at h
    split at h
    · rename_i hy
      subst h hy
      exact .inr (.inr ⟨[], rfl, one x, by simp, Cur.ch_cons rfl⟩)
    rename_i hy
    split at h
    · rename_i hxy
      subst h
      refine .inl ⟨by simpa using hxy.2, by simp [hxy.1]⟩
    · rename_i hxy
      have hxy' : ¬ (x = '*' ∧ y = '/') := fun e => hxy ⟨e.2, by simp [e.1]⟩
      have grow : ∀ b, ¬ ['*', '/'] <:+: y :: b → ¬ ['*', '/'] <:+: x :: y :: b := by
        rintro b h2 ⟨p, q, e⟩
        cases p with
        | nil =>
          simp at e
          exact hxy' ⟨e.1.symm, e.2.1.symm⟩
        | cons z p =>
          simp at e
          exact h2 ⟨p, q, by simp [e.2]⟩
      have mem : ∀ b, '\x00' ∉ b → '\x00' ∉ y :: b := by
        intro b h3 hm
        rcases List.mem_cons.1 hm with hm | hm
        · exact hy hm.symm
        · exact h3 hm
      rcases ih y _ _ c' h with ⟨h1, h2⟩ | ⟨b, h1, h2, h3⟩ | ⟨b, h1, h2, h3, h4⟩
      · subst h1
        exact .inr (.inl ⟨[], by rw [h2]; rfl, one x, by simp⟩)
      · exact .inr (.inl ⟨y :: b, by rw [h1]; rfl, grow b h2, mem b h3⟩)
      · exact .inr (.inr ⟨y :: b, by rw [h1]; rfl, grow b h2, mem b h3, h4⟩)

/-- A comment that the end of the text closes. -/
def OpenComment (e : List Char) : Prop :=
  (∃ b, e = '/' :: '/' :: b ∧ '\n' ∉ b ∧ '\x00' ∉ b) ∨
    ∃ b, e = '/' :: '*' :: b ∧ ¬ ['*', '/'] <:+: '*' :: b ∧ '\x00' ∉ b

/-- At the end nothing is skipped. -/
theorem rSkip_end {n} {s s' : PSt} (h0 : s.cur.ch = '\x00') (h : rSkip n s = .ok () s') : s' = s := by
  cases n with
  | zero => cases h
  | succ n =>
    unfold rSkip at h
    have hs : (s.cur.span rcol isWs).2 = s.cur := by
      rw [Cur.span_stop]; intro y r e; rw [Cur.ch_cons e] at h0; subst h0; decide
    rw [hs] at h
    simp only at h
    rw [if_neg (by rw [h0]; decide), if_neg (by rw [h0]; decide)] at h
    injection h with _ h
    exact h.symm

theorem rSkip_sound (n : Nat) : ∀ {s s' : PSt}, rSkip n s = .ok () s' →
    (∃ w e, s.cur.txt = w ++ e ++ s'.cur.txt ∧ RLayout w ∧ (e = [] ∨ OpenComment e ∧ s'.cur.ch = '\x00')) ∧
      s'.strbuf = s.strbuf ∧ s'.identbuf = s.identbuf := by
  induction n with
  | zero => intro s s' h; cases h
  | succ n ih =>
    intro s s' h
    unfold rSkip at h
    obtain ⟨q1, q2, _⟩ := span_spec rcol isWs s.cur
    generalize s.cur.span rcol isWs = r at *
    simp only at h
    have wrap : ∀ {u : List Char} {s2 : PSt}, rSkip n s2 = .ok () s' → r.2.txt = u ++ s2.cur.txt → (∀ w, RLayout w → RLayout (u ++ w)) →
        s2.strbuf = s.strbuf → s2.identbuf = s.identbuf →
        (∃ w e, s.cur.txt = w ++ e ++ s'.cur.txt ∧ RLayout w ∧ (e = [] ∨ OpenComment e ∧ s'.cur.ch = '\x00')) ∧
          s'.strbuf = s.strbuf ∧ s'.identbuf = s.identbuf := by
      intro u s2 h hu hl hb1 hb2
      obtain ⟨⟨w, e, p1, p2, p3⟩, p4, p5⟩ := ih h
      refine ⟨⟨r.1 ++ (u ++ w), e, ?_, RLayout.ws q2 (hl w p2), p3⟩, by rw [p4, hb1], by rw [p5, hb2]⟩
      rw [q1, hu, p1]; simp
    have stop : ∀ {u : List Char} {s2 : PSt}, rSkip n s2 = .ok () s' → r.2.txt = u ++ s2.cur.txt → OpenComment u → s2.cur.ch = '\x00' →
        s2.strbuf = s.strbuf → s2.identbuf = s.identbuf →
        (∃ w e, s.cur.txt = w ++ e ++ s'.cur.txt ∧ RLayout w ∧ (e = [] ∨ OpenComment e ∧ s'.cur.ch = '\x00')) ∧
          s'.strbuf = s.strbuf ∧ s'.identbuf = s.identbuf := by
      intro u s2 h hu hl h0 hb1 hb2
      have := rSkip_end h0 h
      subst this
      refine ⟨⟨r.1, u, by rw [q1, hu]; simp, ?_, .inr ⟨hl, h0⟩⟩, hb1, hb2⟩
      have := RLayout.ws q2 .nil
      simpa using this
    split at h
    · rename_i h1
      have e0 := Cur.ch_pos h1 (by decide)
      split at h
      · rename_i h2
        have e1 := Cur.ch_pos h2 (by decide)
        rw [Cur.next_txt] at e1
        obtain ⟨s1, s2, s3⟩ := span_spec rcol (fun x => x ≠ '\n' && x ≠ '\x00') (r.2.next rcol)
        generalize hsp : (r.2.next rcol).span rcol (fun x => x ≠ '\n' && x ≠ '\x00') = sp at *
        have hb : ∃ b, sp.1 = '/' :: b := by
          cases hsp1 : sp.1 with
          | nil =>
            have h3 : (r.2.next rcol).txt.takeWhile (fun x => x ≠ '\n' && x ≠ '\x00') = [] := by
              rw [← Cur.span_fst (k := rcol), hsp, hsp1]
            rw [Cur.next_txt, e1] at h3
            simp [List.takeWhile] at h3
          | cons y b =>
            rw [Cur.next_txt, e1, hsp1] at s1
            simp at s1
            exact ⟨b, by rw [← s1.1]⟩
        obtain ⟨b, hb⟩ := hb
        have hn : '\n' ∉ b := by
          intro hm
          have := s2 '\n' (by rw [hb]; simp [hm])
          simp at this
        have hz : '\x00' ∉ b := by
          intro hm
          have := s2 '\x00' (by rw [hb]; simp [hm])
          simp at this
        rw [Cur.next_txt, hb] at s1
        by_cases hnl : sp.2.ch = '\n'
        · rw [if_pos hnl] at h
          have e3 := Cur.ch_pos hnl (by decide)
          refine wrap (u := '/' :: '/' :: (b ++ ['\n'])) h ?_ (fun w hw => ?_) rfl rfl
          · simp only [Cur.next_txt]
            rw [e0, s1]
            rw [show sp.2.txt = '\n' :: sp.2.txt.tail from e3]
            simp
          · have := RLayout.line hn hz hw
            simpa using this
        · rw [if_neg hnl] at h
          refine stop (u := '/' :: '/' :: b) h ?_ (.inl ⟨b, rfl, hn, hz⟩) ?_ rfl rfl
          · simp only
            rw [e0, s1]; simp
          · simp only
            cases ht : sp.2.txt with
            | nil => exact Cur.ch_nil ht
            | cons y rest =>
              have hy := s3 y (by rw [ht]; rfl)
              simp only [ne_eq, decide_not, Bool.and_eq_false_iff, Bool.not_eq_eq_eq_not, Bool.not_false,
                decide_eq_true_eq] at hy
              rw [Cur.ch_cons ht] at hnl ⊢
              rcases hy with hy | hy
              · exact absurd hy hnl
              · exact hy
      · split at h
        · rename_i h2
          have e1 := Cur.ch_pos h2 (by decide)
          rw [Cur.next_txt] at e1
          have hb : ∃ l c, rBlock (r.2.next rcol).txt false (r.2.next rcol).line (r.2.next rcol).col =
              rBlock r.2.txt.tail.tail ('*' == '*') l c := by
            rw [Cur.next_txt]
            conv in (rBlock r.2.txt.tail _ _ _) => rw [e1]
            simp only [rBlock]
            rw [if_neg (by decide), if_neg (by decide)]
            exact ⟨_, _, rfl⟩
          obtain ⟨l, c, hb⟩ := hb
          rw [hb] at h
          generalize hcb : rBlock r.2.txt.tail.tail ('*' == '*') l c = cb at h
          rcases rBlock_sound _ _ _ _ _ hcb with ⟨_, h3⟩ | ⟨b, h3, h4, h5⟩ | ⟨b, h3, h4, h5, h6⟩
          · refine wrap (u := ['/', '*', '/']) h ?_ (fun w hw => .short hw) rfl rfl
            simp only
            rw [e0, e1, h3]; rfl
          · refine wrap (u := '/' :: '*' :: (b ++ ['*', '/'])) h ?_ (fun w hw => ?_) rfl rfl
            · simp only
              rw [e0, e1, h3]; simp
            · have := RLayout.block h4 h5 hw
              simpa using this
          · refine stop (u := '/' :: '*' :: b) h ?_ (.inr ⟨b, rfl, h4, h5⟩) h6 rfl rfl
            simp only
            rw [e0, e1, h3]; simp
        · cases h
    · split at h
      · rename_i h1
        have e0 := Cur.ch_pos h1 (by decide)
        by_cases hb : (r.2.next rcol).ch = '\\'
        · have e1 := Cur.ch_pos hb (by decide)
          rw [if_pos hb] at h
          by_cases h3 : (((r.2.next rcol).next rcol).next rcol).ch = '\''
          case neg => rw [if_pos h3] at h; cases h
          rw [if_neg (fun k => k h3)] at h
          have e3 := Cur.ch_pos h3 (by decide)
          simp only [Cur.next_txt] at e1 e3
          cases ht : r.2.txt.tail.tail with
          | nil => rw [ht] at e3; cases e3
          | cons x t =>
            rw [ht] at e3 e1
            refine wrap (u := ['\'', '\\', x, '\'']) h ?_ (fun w hw => .escaped hw) rfl rfl
            simp only [Cur.next_txt]
            rw [e0, e1]
            simp only [List.tail_cons] at e3 ⊢
            obtain ⟨t', rfl⟩ : ∃ t', t = '\'' :: t' := ⟨_, e3⟩
            rfl
        · rw [if_neg hb] at h
          by_cases h3 : ((r.2.next rcol).next rcol).ch = '\''
          case neg => rw [if_pos h3] at h; cases h
          rw [if_neg (fun k => k h3)] at h
          have e3 := Cur.ch_pos h3 (by decide)
          simp only [Cur.next_txt] at e3
          cases ht : r.2.txt.tail with
          | nil => rw [ht] at e3; cases e3
          | cons x t =>
            have hx : (r.2.next rcol).ch = x := Cur.ch_cons (t := t) (by rw [Cur.next_txt, ht])
            rw [hx] at hb
            rw [ht] at e3
            refine wrap (u := ['\'', x, '\'']) h ?_ (fun w hw => .char hb hw) rfl rfl
            simp only [Cur.next_txt]
            rw [e0, ht]
            simp only [List.tail_cons] at e3 ⊢
            obtain ⟨t', rfl⟩ : ∃ t', t = '\'' :: t' := ⟨_, e3⟩
            rfl
      · injection h with _ h
        subst h
        refine ⟨⟨r.1, [], by simpa using q1, ?_, .inl rfl⟩, rfl, rfl⟩
        have := RLayout.ws q2 .nil
        simpa using this

/-- `txt` begins with the lexeme `l`, and `rest` remains; or `l` is the end. -/
def RLex (fl : FloatOps) (txt : List Char) (l : Lexeme) (rest : List Char) : Prop :=
  (l = .eof ∧ RScanEnd txt) ∨ RScan fl [l] txt rest

/-- Whatever the lexer returns has been read as a lexeme, or is the end of the text. -/
theorem rNext_sound (hfl : FloatLaws fl) {s s' : PSt} (h : rNext fl s = .ok () s') :
    ∃ l, RLex fl s.cur.txt l s'.cur.txt ∧ s'.tok = rtok l ∧ s'.strbuf = l.sb.getD s.strbuf ∧
      s'.identbuf = l.ib.getD s.identbuf := by
  unfold rNext at h
  cases hk : rSkip (s.cur.txt.length + 1) s with
  | oof => rw [hk] at h; cases h
  | err => rw [hk] at h; cases h
  | panic => rw [hk] at h; cases h
  | ok u s1 =>
    rw [hk] at h
    simp only at h
    obtain ⟨⟨w, e, p1, p2, p3⟩, b1, b2⟩ := rSkip_sound _ hk
    have one : ∀ {l sp}, s1.cur.ch ≠ '\x00' → RSpells' fl l sp → s1.cur.txt = sp ++ s'.cur.txt →
        (∀ c, s'.cur.txt.head? = some c → RLongest l sp c) → RLex fl s.cur.txt l s'.cur.txt := by
      intro l sp h0 h1 h2 h3
      rcases p3 with rfl | ⟨_, p3⟩
      · refine .inr ?_
        rw [p1, h2, List.append_nil, ← List.append_assoc]
        exact .cons p2 h1 h3 .nil
      · exact absurd p3 h0
    unfold rTok at h
    simp only at h
    split at h
    · rename_i h0
      injection h with _ h
      subst h
      refine ⟨.eof, .inl ⟨rfl, w, e, s1.cur.txt, p1, p2, ?_, ?_⟩, rfl, b1, b2⟩
      · rcases p3 with rfl | ⟨p3 | p3, _⟩
        · exact .inl rfl
        · exact .inr (.inl p3)
        · exact .inr (.inr p3)
      · cases ht : s1.cur.txt with
        | nil => exact .inl rfl
        | cons x r => rw [Cur.ch_cons ht] at h0; subst h0; exact .inr rfl
    · rename_i h0
      have e0 := Cur.ch_pos (c := s1.cur) rfl h0
      split at h
      · rename_i t ht
        injection h with _ h
        subst h
        have pun : ∀ {l}, RSpell fl l [s1.cur.ch] → (∀ sp c, RLongest l sp c) → t = rtok l → l.sb = none → l.ib = none → _ :=
          fun {l} g1 g2 g3 g4 g5 => (⟨l, one (l := l) h0 (.inl g1) (by simpa using e0) (fun c _ => g2 _ c), g3,
            by rw [g4]; exact b1, by rw [g5]; exact b2⟩ : ∃ l, RLex fl s.cur.txt l (s1.cur.next rcol).txt ∧ t = rtok l ∧
              s1.strbuf = l.sb.getD s.strbuf ∧ s1.identbuf = l.ib.getD s.identbuf)
        unfold rPunct at ht
        split at ht
        · rename_i hc; injection ht with ht; subst ht; exact pun (l := .punct .colon) (by rw [hc]; exact .colon) (fun _ _ => trivial) rfl rfl rfl
        split at ht
        · rename_i hc; injection ht with ht; subst ht; exact pun (l := .punct .comma) (by rw [hc]; exact .comma) (fun _ _ => trivial) rfl rfl rfl
        split at ht
        · rename_i hc; injection ht with ht; subst ht; exact pun (l := .punct .blockOpen) (by rw [hc]; exact .blockOpen) (fun _ _ => trivial) rfl rfl rfl
        split at ht
        · rename_i hc; injection ht with ht; subst ht; exact pun (l := .punct .blockClose) (by rw [hc]; exact .blockClose) (fun _ _ => trivial) rfl rfl rfl
        split at ht
        · rename_i hc; injection ht with ht; subst ht; exact pun (l := .punct .parenOpen) (by rw [hc]; exact .parenOpen) (fun _ _ => trivial) rfl rfl rfl
        split at ht
        · rename_i hc; injection ht with ht; subst ht; exact pun (l := .punct .parenClose) (by rw [hc]; exact .parenClose) (fun _ _ => trivial) rfl rfl rfl
        split at ht
        · rename_i hc; injection ht with ht; subst ht; exact pun (l := .punct .curlyOpen) (by rw [hc]; exact .curlyOpen) (fun _ _ => trivial) rfl rfl rfl
        split at ht
        · rename_i hc; injection ht with ht; subst ht; exact pun (l := .punct .curlyClose) (by rw [hc]; exact .curlyClose) (fun _ _ => trivial) rfl rfl rfl
        · cases ht
      · split at h
        · rename_i hx
          cases hn : lexNum rcol fl s1.cur with
          | mk o c1 =>
            rw [hn] at h
            cases o with
            | none => cases h
            | some t =>
              injection h with _ h
              subst h
              obtain ⟨sp, m, g1, g2, g3, g4⟩ := lexNum_sound' hfl hx hn
              refine ⟨.num m, one (l := .num m) h0 ?_ g1 (fun c hc => ?_), g3, b1, b2⟩
              · rcases g2 with g2 | ⟨_, g2⟩
                · exact .inl (.num g2)
                · exact .inr ⟨m, rfl, g2⟩
              · obtain ⟨k1, k2, k3⟩ := g4 c hc
                refine ⟨?_, k2, k3⟩
                rintro ⟨k4, k5⟩
                simp [isDig, k4, k5] at k1
        · split at h
          · rename_i hid
            obtain ⟨g1, g2, g3⟩ := span_spec rcol isIdChar s1.cur
            generalize s1.cur.span rcol isIdChar = r at *
            have hl : ∀ x, r.2.txt.head? = some x → ¬ IdCont x := by
              intro x hx
              rw [← Ron.isIdChar_iff, g3 x hx]; simp
            have hw : RWord r.1 := by
              cases hr : r.1 with
              | nil =>
                exfalso
                rw [hr, List.nil_append] at g1
                have h1 := g3 s1.cur.ch (by rw [← g1, e0]; rfl)
                rw [isIdChar, hid] at h1
                cases h1
              | cons x t =>
                rw [hr] at g1
                refine ⟨x, t, rfl, ?_, fun d hd => ?_⟩
                · have := Cur.ch_cons (by simpa using g1)
                  rw [this] at hid
                  exact (isIdStart_iff x).1 hid
                · exact (Ron.isIdChar_iff d).1 (g2 d (by rw [hr]; simp [hd]))
            have fin : ∀ t, t = rtok (.word r.1) → s' = { s1 with cur := r.2, identbuf := r.1, tok := t } →
                ∃ l, RLex fl s.cur.txt l s'.cur.txt ∧ s'.tok = rtok l ∧ s'.strbuf = l.sb.getD s.strbuf ∧
                  s'.identbuf = l.ib.getD s.identbuf := by
              intro t ht hs
              refine ⟨.word r.1, one (l := .word r.1) (sp := r.1) h0 (.inl (.word hw)) (by rw [hs]; exact g1) ?_, ?_, ?_, ?_⟩
              · rw [hs]; exact hl
              · rw [hs]; exact ht
              · rw [hs]; exact b1
              · rw [hs]; rfl
            split at h
            · rename_i hw
              injection h with _ h
              exact fin (.bool true) (by rw [rtok, if_pos hw]) h.symm
            rename_i hw1
            split at h
            · rename_i hw
              injection h with _ h
              exact fin (.bool false) (by rw [rtok, if_neg hw1, if_pos hw]) h.symm
            rename_i hw2
            injection h with _ h
            exact fin .ident (by rw [rtok, if_neg hw1, if_neg hw2]) h.symm
          · split at h
            · rename_i hq
              cases hn : lexStr rcol (s1.cur.txt.length + 1) (s1.cur.next rcol) [] with
              | oof => rw [hn] at h; cases h
              | bad c1 b => rw [hn] at h; cases h
              | done c1 b =>
                rw [hn] at h
                injection h with _ h
                subst h
                obtain ⟨b1', s1', g1, g2, g3⟩ := lexStr_sound _ hn
                refine ⟨.str s1', one (l := .str s1') h0 (.inl (.str g2)) ?_ (fun _ _ => trivial), rfl, by simpa [Lexeme.sb] using g3, b2⟩
                rw [Cur.next_txt] at g1
                rw [e0, g1, hq]; simp
            · cases h

theorem RScan.append {ls ms a b c} (h : RScan fl ls a b) (h' : RScan fl ms b c) : RScan fl (ls ++ ms) a c := by
  induction h with
  | nil => exact h'
  | cons h1 h2 h3 _ ih => exact .cons h1 h2 h3 (ih h')

end NS
