import Verif.Lemmas.CurRel
/-! The lexers always return and consume text. -/
namespace NS
variable {fl : FloatOps}

theorem Cur.pos_of_ch {c : Cur} (h : c.ch ≠ '\x00') : 0 < c.txt.length := by
  cases e : c.txt with
  | nil => exact absurd (Cur.ch_nil e) h
  | cons _ _ => simp

theorem span_len (k p) (c : Cur) : (c.span k p).2.txt.length ≤ c.txt.length := by
  rw [Cur.span_txt]; exact dropWhile_length_le _

theorem span_len_lt (k) {p : Char → Bool} {c : Cur} (h : p c.ch = true) (hz : p '\x00' = false) :
    (c.span k p).2.txt.length < c.txt.length := by
  rw [Cur.span_txt]
  cases e : c.txt with
  | nil => rw [Cur.ch_nil e, hz] at h; cases h
  | cons x t =>
    rw [Cur.ch_cons e] at h
    have := dropWhile_length_le (p := p) t
    simp only [List.dropWhile, h, List.length_cons]; omega

theorem lexNum_len (k) (fl : FloatOps) {c : Cur} (h : c.ch = '.' ∨ c.ch = '-' ∨ c.ch = '+' ∨ isDig c.ch = true) :
    (lexNum k fl c).2.txt.length < c.txt.length := by
  have hpos : 0 < c.txt.length := by
    apply Cur.pos_of_ch
    rcases h with h | h | h | h
    · rw [h]; decide
    · rw [h]; decide
    · rw [h]; decide
    · intro e; rw [e] at h; exact absurd h (by decide)
  unfold lexNum
  simp only
  generalize ha : (if c.ch = '-' ∨ c.ch = '+' then ([c.ch], c.next k) else (([] : List Char), c)) = a
  have ha' : a.2.txt.length < c.txt.length ∨ (a.2 = c ∧ (c.ch = '.' ∨ isDig c.ch = true)) := by
    by_cases hs : c.ch = '-' ∨ c.ch = '+'
    · rw [if_pos hs] at ha; subst ha; left; simp; omega
    · rw [if_neg hs] at ha; subst ha; right
      refine ⟨rfl, ?_⟩
      rcases h with h | h | h | h
      · exact .inl h
      · exact absurd (.inl h) hs
      · exact absurd (.inr h) hs
      · exact .inr h
  have hb := span_len k isDig a.2
  have hb' : (a.2.span k isDig).2.txt.length < c.txt.length ∨ ((a.2.span k isDig).2 = c ∧ c.ch = '.') := by
    rcases ha' with h1 | ⟨h1, h2 | h2⟩
    · left; omega
    · right; refine ⟨?_, h2⟩
      rw [h1, Cur.span_stop]
      intro x t e
      rw [Cur.ch_cons e] at h2; rw [h2]; decide
    · left; rw [h1]; exact span_len_lt k h2 (by decide)
  generalize (a.2.span k isDig) = b at hb'
  generalize hd : (if b.2.ch = '.' then (('.' :: ((b.2.next k).span k isDig).1), ((b.2.next k).span k isDig).2) else (([] : List Char), b.2)) = d
  have hd' : d.2.txt.length < c.txt.length := by
    by_cases hs : b.2.ch = '.'
    · rw [if_pos hs] at hd; subst hd
      have h1 := span_len k isDig (b.2.next k)
      simp only [Cur.next_txt, List.length_tail] at h1
      have : b.2.txt.length ≤ c.txt.length := by
        rcases hb' with h | ⟨h, _⟩
        · omega
        · rw [h]; omega
      have hp := Cur.pos_of_ch (c := b.2) (by rw [hs]; decide)
      simp only; omega
    · rw [if_neg hs] at hd; subst hd
      rcases hb' with h | ⟨h, h2⟩
      · exact h
      · rw [h] at hs; exact absurd h2 hs
  have hm : ∀ m : List Char × Cur, m = (if (d.2.next k).ch = '-' then (['-'], (d.2.next k).next k) else ([], d.2.next k)) →
      m.2.txt.length ≤ d.2.txt.length := by
    rintro m rfl
    split <;> simp <;> omega
  generalize (if (d.2.next k).ch = '-' then (['-'], (d.2.next k).next k) else (([] : List Char), d.2.next k)) = m at hm ⊢
  have hm := hm m rfl
  have hx := span_len k isDig m.2
  generalize he : (if d.2.ch = 'e' ∨ d.2.ch = 'E' then (d.2.ch :: (m.1 ++ (m.2.span k isDig).1), (m.2.span k isDig).2) else (([] : List Char), d.2)) = e
  have he' : e.2.txt.length < c.txt.length := by
    by_cases hs : d.2.ch = 'e' ∨ d.2.ch = 'E'
    · rw [if_pos hs] at he; subst he; simp only; omega
    · rw [if_neg hs] at he; subst he; exact hd'
  split
  · exact he'
  split
  · exact he'
  · exact he'

theorem lexNum_tok (k) (fl : FloatOps) (c : Cur) : ∀ t, (lexNum k fl c).1 = some t → t ≠ .eof := by
  have key : ∀ (A B : Prop) [Decidable A] [Decidable B] (o : Option (BitVec 64)) (d1 d2 : List Char) (c : Cur) t,
      (if A then (o.map Tok.f64, c) else if B then (parseI64 d1, c) else (parseU64 d2, c)).1 = some t → t ≠ .eof := by
    intro A B _ _ o d1 d2 c t h
    split at h
    · cases o with
      | none => cases h
      | some x => injection h with h; rw [← h]; simp
    split at h
    · unfold parseI64 at h
      simp only at h
      split at h
      · cases h
      split at h
      · injection h with h; rw [← h]; simp
      · cases h
    · unfold parseU64 at h
      simp only at h
      split at h
      · cases h
      split at h
      · injection h with h; rw [← h]; simp
      · cases h
  intro t
  exact key _ _ _ _ _ _ _

theorem lexStr_len (k) (n : Nat) (c : Cur) (buf : List Char) :
    ∀ c' b, lexStr k n c buf = .done c' b → c'.txt.length < c.txt.length := by
  induction n generalizing c buf with
  | zero => intro c' b h; cases h
  | succ n ih =>
    intro c' b h
    unfold lexStr at h
    simp only at h
    split at h
    · rename_i hq
      have := Cur.pos_of_ch (c := c) (by rw [hq]; decide)
      injection h with h1 _; subst h1; simp; omega
    split at h
    · rename_i hq
      have hp := Cur.pos_of_ch (c := c) (by rw [hq]; decide)
      split at h
      · cases h
      split at h
      · have hl := hexUnescape_txt k (c.next k)
        simp only [Cur.next_txt, List.length_tail] at hl
        generalize hexUnescape k (c.next k) = r at hl h
        obtain ⟨o, c2⟩ := r
        cases o with
        | none => cases h
        | some ch => have := ih _ _ _ _ h; simp only at hl; omega
      · have := ih _ _ _ _ h; simp at this; omega
    split at h
    · cases h
    · rename_i hz
      have hp := Cur.pos_of_ch (c := c) hz
      have := ih _ _ _ _ h; simp at this; omega

theorem jSkip_len (n : Nat) (c c' : Cur) (h : jSkip n c = .at c') : c'.txt.length ≤ c.txt.length := by
  induction n generalizing c with
  | zero => cases h
  | succ n ih =>
    unfold jSkip at h
    simp only at h
    have hw := span_len jcol isWs c
    generalize (c.span jcol isWs).2 = w at hw h
    split at h
    · split at h
      · have := ih _ h
        have := span_len jcol (fun x => x ≠ '\n' && x ≠ '\x00') (w.next jcol)
        simp at *; omega
      split at h
      · have hb := jBlock_txt (w.next jcol).txt (w.next jcol).ch (w.next jcol).line (w.next jcol).col
        generalize jBlock (w.next jcol).txt (w.next jcol).ch (w.next jcol).line (w.next jcol).col = r at hb h
        obtain ⟨b, c2⟩ := r
        cases b with
        | false => cases h
        | true => have := ih _ h; simp at *; omega
      · cases h
    · injection h with h; subst h; exact hw

/-- The token proper: returns, and either the end is reached or text consumed. -/
theorem jTok_prog (s : PSt) :
    (∃ s', jTok fl s = .ok () s' ∧ ((s'.tok = .eof ∧ s'.cur = s.cur ∧ s.cur.ch = '\x00') ∨
      (s'.cur.txt.length < s.cur.txt.length ∧ s'.tok ≠ .eof ∧ s.cur.ch ≠ '\x00'))) ∨
    (s.cur.ch ≠ '\x00' ∧ ∃ e s', jTok fl s = .err e s' ∧ s'.tok ≠ .eof) ∨
    (s.cur.ch ≠ '\x00' ∧ ∃ e s', jTok fl s = .err e s' ∧ s'.tok = s.tok) := by
  unfold jTok
  simp only
  by_cases h0 : s.cur.ch = '\x00'
  · rw [if_pos h0]; exact .inl ⟨_, rfl, .inl ⟨rfl, rfl, h0⟩⟩
  rw [if_neg h0]
  have hp := Cur.pos_of_ch h0
  cases h1 : jPunct s.cur.ch with
  | some t =>
    refine .inl ⟨_, rfl, .inr ⟨by simp; omega, ?_, h0⟩⟩
    unfold jPunct at h1
    simp only
    rintro rfl
    repeat (split at h1; · cases h1)
    cases h1
  | none =>
    simp only
    split
    · rename_i hd
      have hl := lexNum_len jcol fl (c := s.cur) (.inr hd)
      have ht := lexNum_tok jcol fl s.cur
      generalize lexNum jcol fl s.cur = r at hl ht
      obtain ⟨o, c'⟩ := r
      cases o with
      | none => exact .inr (.inr ⟨h0, _, _, rfl, rfl⟩)
      | some t => exact .inl ⟨_, rfl, .inr ⟨hl, ht t rfl, h0⟩⟩
    split
    · rename_i hi
      have hl := span_len_lt jcol hi (by decide)
      split
      · exact .inl ⟨_, rfl, .inr ⟨hl, by simp, h0⟩⟩
      split
      · exact .inl ⟨_, rfl, .inr ⟨hl, by simp, h0⟩⟩
      split
      · exact .inl ⟨_, rfl, .inr ⟨hl, by simp, h0⟩⟩
      · exact .inr (.inl ⟨h0, _, _, rfl, by simp⟩)
    split
    · have hf := (lexStr_fuel jcol (n := s.cur.txt.length + 1) (m := s.cur.txt.length + 1) (c := s.cur.next jcol) []
        (by simp; omega) (by simp; omega)).2
      have hl := lexStr_len jcol (s.cur.txt.length + 1) (s.cur.next jcol) []
      generalize lexStr jcol (s.cur.txt.length + 1) (s.cur.next jcol) [] = r at hf hl
      cases r with
      | oof => exact absurd rfl hf
      | bad c' b => exact .inr (.inr ⟨h0, _, _, rfl, rfl⟩)
      | done c' b =>
        refine .inl ⟨_, rfl, .inr ⟨?_, by simp, h0⟩⟩
        have := hl _ _ rfl
        simp at this ⊢; omega
    · exact .inr (.inr ⟨h0, _, _, rfl, rfl⟩)

/-- At the end of the input (or a NUL) only layout has been passed. -/
def AtEof (s : PSt) : Prop := s.tok = .eof → s.cur.ch = '\x00'

/-- What is left to do. -/
def PSt.left (s : PSt) : Nat := if s.tok = .eof then 0 else s.cur.txt.length + 1

theorem left_lt {s s' : PSt} (h : s.tok ≠ .eof) (h' : s'.tok = .eof ∨ s'.cur.txt.length < s.cur.txt.length) :
    s'.left < s.left := by
  unfold PSt.left
  rw [if_neg h]
  split
  · omega
  · rcases h' with h' | h'
    · contradiction
    · omega

/-- A lexer that always returns, makes progress and keeps `I`. -/
structure Lexer (nx : PM Unit) (I : PSt → Prop) : Prop where
  run : ∀ s, I s → (∃ s', nx s = .ok () s' ∧ I s' ∧ (s'.left < s.left ∨ s.tok = .eof ∧ s'.tok = .eof)) ∨
    ∃ e s', nx s = .err e s'
  total : ∀ s, (∃ s', nx s = .ok () s') ∨ ∃ e s', nx s = .err e s'
  setStr : ∀ s b, I s → I { s with strbuf := b }

theorem jNext_eof {s : PSt} (h : s.cur.ch = '\x00') : jNext fl s = .ok () { s with tok := .eof } := by
  unfold jNext
  have hs : (s.cur.span jcol isWs).2 = s.cur := by
    rw [Cur.span_stop]; intro y r e; rw [Cur.ch_cons e] at h; subst h; decide
  have h2 : s.cur.ch ≠ '/' := by rw [h]; decide
  simp only [jSkip, hs, if_neg h2]
  unfold jTok
  simp only [if_pos h]

theorem jNext_total (s : PSt) : (∃ s', jNext fl s = .ok () s') ∨ ∃ e s', jNext fl s = .err e s' := by
  have hf := (jSkip_fuel (n := s.cur.txt.length + 1) (m := s.cur.txt.length + 1) (c := s.cur) (by omega) (by omega)).2
  unfold jNext
  generalize jSkip (s.cur.txt.length + 1) s.cur = r at hf
  cases r with
  | oof => exact absurd rfl hf
  | bad c w => exact .inr ⟨_, _, rfl⟩
  | «at» c =>
    rcases jTok_prog (fl := fl) { s with cur := c } with ⟨s', e, h⟩ | ⟨_, _, s', e, h⟩ | ⟨_, _, s', e, h⟩
    · exact .inl ⟨s', e⟩
    · exact .inr ⟨_, s', e⟩
    · exact .inr ⟨_, s', e⟩

theorem jNext_lexer : Lexer (jNext fl) AtEof where
  setStr _ _ h := h
  total := jNext_total
  run s hs := by
    by_cases he : s.tok = .eof
    · exact .inl ⟨_, jNext_eof (hs he), fun _ => hs he, .inr ⟨he, rfl⟩⟩
    · have hf := (jSkip_fuel (n := s.cur.txt.length + 1) (m := s.cur.txt.length + 1) (c := s.cur) (by omega) (by omega)).2
      have hl := jSkip_len (s.cur.txt.length + 1) s.cur
      unfold jNext
      generalize jSkip (s.cur.txt.length + 1) s.cur = r at hf hl
      cases r with
      | oof => exact absurd rfl hf
      | bad c w => exact .inr ⟨_, _, rfl⟩
      | «at» c =>
        have hl := hl c rfl
        rcases jTok_prog (fl := fl) { s with cur := c } with ⟨s', e, h⟩ | ⟨_, _, s', e, h⟩ | ⟨_, _, s', e, h⟩
        · refine .inl ⟨s', e, ?_, .inl ?_⟩
          · rcases h with ⟨_, h2, h3⟩ | ⟨_, h2, _⟩
            · intro _; rw [h2]; exact h3
            · intro h; exact absurd h h2
          · rcases h with ⟨h, _⟩ | ⟨h, _⟩
            · exact left_lt he (.inl h)
            · exact left_lt he (.inr (by simp only at h; omega))
        · exact .inr ⟨_, s', e⟩
        · exact .inr ⟨_, s', e⟩

/-! ## RON -/

theorem rBlock_txt (t : List Char) (x : Bool) (l c : Nat) : (rBlock t x l c).txt.length ≤ t.length := by
  induction t generalizing x l c with
  | nil => simp [rBlock]
  | cons y t ih =>
    unfold rBlock
    simp only
    split
    · simp
    split
    · simp
    · have := ih (y == '*') ((Cur.mk (y :: t) l c).next rcol).line ((Cur.mk (y :: t) l c).next rcol).col
      simp only [List.length_cons]; omega

/-- Skipping always returns; enough fuel is the remaining text. -/
theorem rSkip_prog {n m : Nat} {s : PSt} (hn : s.cur.txt.length < n) (hm : s.cur.txt.length < m) :
    rSkip n s = rSkip m s ∧
    ((∃ s', rSkip n s = .ok () s' ∧ s'.cur.txt.length ≤ s.cur.txt.length ∧ (s'.tok = .eof → s.tok = .eof)) ∨
     (∃ e s', rSkip n s = .err e s' ∧ (s'.tok = .eof → s.tok = .eof))) := by
  induction n generalizing m s with
  | zero => omega
  | succ n ih =>
    cases m with
    | zero => omega
    | succ m =>
      unfold rSkip
      simp only
      have hw := span_len rcol isWs s.cur
      generalize (s.cur.span rcol isWs).2 = w at hw
      have lift : ∀ (c : Cur) (t : Tok), c.txt.length < w.txt.length → (t = .eof → s.tok = .eof) →
          rSkip n { s with cur := c, tok := t } = rSkip m { s with cur := c, tok := t } ∧
          ((∃ s', rSkip n { s with cur := c, tok := t } = .ok () s' ∧ s'.cur.txt.length ≤ s.cur.txt.length ∧
              (s'.tok = .eof → s.tok = .eof)) ∨
           (∃ e s', rSkip n { s with cur := c, tok := t } = .err e s' ∧ (s'.tok = .eof → s.tok = .eof))) := by
        intro c t hc ht
        obtain ⟨h1, h2⟩ := ih (m := m) (s := { s with cur := c, tok := t }) (by simp only; omega) (by simp only; omega)
        refine ⟨h1, ?_⟩
        rcases h2 with ⟨s', e, h3, h4⟩ | ⟨e, s', h3, h4⟩
        · exact .inl ⟨s', e, by simp only at h3; omega, fun h => ht (h4 h)⟩
        · exact .inr ⟨e, s', h3, fun h => ht (h4 h)⟩
      by_cases h1 : w.ch = '/'
      · rw [if_pos h1, if_pos h1]
        have hp := Cur.pos_of_ch (c := w) (by rw [h1]; decide)
        have hnx : (w.next rcol).txt.length < w.txt.length := by simp; omega
        by_cases h2 : (w.next rcol).ch = '/'
        · rw [if_pos h2, if_pos h2]
          have := span_len rcol (fun x => x ≠ '\n' && x ≠ '\x00') (w.next rcol)
          refine lift _ _ ?_ id
          split
          · simp only [Cur.next_txt, List.length_tail] at *; omega
          · omega
        rw [if_neg h2, if_neg h2]
        by_cases h3 : (w.next rcol).ch = '*'
        · rw [if_pos h3, if_pos h3]
          have := rBlock_txt (w.next rcol).txt false (w.next rcol).line (w.next rcol).col
          exact lift _ _ (by omega) id
        · rw [if_neg h3, if_neg h3]
          exact ⟨rfl, .inr ⟨_, _, rfl, id⟩⟩
      rw [if_neg h1, if_neg h1]
      by_cases h2 : w.ch = '\''
      · rw [if_pos h2, if_pos h2]
        have hp := Cur.pos_of_ch (c := w) (by rw [h2]; decide)
        have hc2 : ∀ c2, c2 = (if (w.next rcol).ch = '\\' then (w.next rcol).next rcol else w.next rcol) →
            c2.txt.length < w.txt.length := by
          rintro c2 rfl
          split <;> simp <;> omega
        generalize (if (w.next rcol).ch = '\\' then (w.next rcol).next rcol else w.next rcol) = c2 at hc2
        have hc2 := hc2 _ rfl
        by_cases h3 : (c2.next rcol).ch ≠ '\''
        · rw [if_pos h3, if_pos h3]
          exact ⟨rfl, .inr ⟨_, _, rfl, id⟩⟩
        · rw [if_neg h3, if_neg h3]
          exact lift _ _ (by simp; omega) (by simp)
      · rw [if_neg h2, if_neg h2]
        exact ⟨rfl, .inl ⟨_, rfl, hw, id⟩⟩

theorem rTok_prog (s : PSt) :
    (∃ s', rTok fl s = .ok () s' ∧ ((s'.tok = .eof ∧ s'.cur = s.cur ∧ s.cur.ch = '\x00') ∨
      (s'.cur.txt.length < s.cur.txt.length ∧ s'.tok ≠ .eof ∧ s.cur.ch ≠ '\x00'))) ∨
    (s.cur.ch ≠ '\x00' ∧ ∃ e s', rTok fl s = .err e s' ∧ s'.tok = s.tok) := by
  unfold rTok
  simp only
  by_cases h0 : s.cur.ch = '\x00'
  · rw [if_pos h0]; exact .inl ⟨_, rfl, .inl ⟨rfl, rfl, h0⟩⟩
  rw [if_neg h0]
  have hp := Cur.pos_of_ch h0
  cases h1 : rPunct s.cur.ch with
  | some t =>
    refine .inl ⟨_, rfl, .inr ⟨by simp; omega, ?_, h0⟩⟩
    unfold rPunct at h1
    simp only
    rintro rfl
    repeat (split at h1; · cases h1)
    cases h1
  | none =>
    simp only
    split
    · rename_i hd
      have hl := lexNum_len rcol fl (c := s.cur) hd
      have ht := lexNum_tok rcol fl s.cur
      generalize lexNum rcol fl s.cur = r at hl ht
      obtain ⟨o, c'⟩ := r
      cases o with
      | none => exact .inr ⟨h0, _, _, rfl, rfl⟩
      | some t => exact .inl ⟨_, rfl, .inr ⟨hl, ht t rfl, h0⟩⟩
    split
    · rename_i hi
      have hl := span_len_lt rcol (p := isIdChar) (c := s.cur) (by simp [isIdChar, hi]) (by decide)
      split
      · exact .inl ⟨_, rfl, .inr ⟨hl, by simp, h0⟩⟩
      split
      · exact .inl ⟨_, rfl, .inr ⟨hl, by simp, h0⟩⟩
      · exact .inl ⟨_, rfl, .inr ⟨hl, by simp, h0⟩⟩
    split
    · have hf := (lexStr_fuel rcol (n := s.cur.txt.length + 1) (m := s.cur.txt.length + 1) (c := s.cur.next rcol) []
        (by simp; omega) (by simp; omega)).2
      have hl := lexStr_len rcol (s.cur.txt.length + 1) (s.cur.next rcol) []
      generalize lexStr rcol (s.cur.txt.length + 1) (s.cur.next rcol) [] = r at hf hl
      cases r with
      | oof => exact absurd rfl hf
      | bad c' b => exact .inr ⟨h0, _, _, rfl, rfl⟩
      | done c' b =>
        refine .inl ⟨_, rfl, .inr ⟨?_, by simp, h0⟩⟩
        have := hl _ _ rfl
        simp at this ⊢; omega
    · exact .inr ⟨h0, _, _, rfl, rfl⟩

theorem rNext_eof {s : PSt} (h : s.cur.ch = '\x00') : rNext fl s = .ok () { s with tok := .eof } := by
  unfold rNext
  have hs : (s.cur.span rcol isWs).2 = s.cur := by
    rw [Cur.span_stop]; intro y r e; rw [Cur.ch_cons e] at h; subst h; decide
  have h2 : s.cur.ch ≠ '/' := by rw [h]; decide
  have h3 : s.cur.ch ≠ '\'' := by rw [h]; decide
  simp only [rSkip, hs, if_neg h2, if_neg h3]
  unfold rTok
  simp only [if_pos h]

theorem rNext_total (s : PSt) : (∃ s', rNext fl s = .ok () s') ∨ ∃ e s', rNext fl s = .err e s' := by
  obtain ⟨_, h⟩ := rSkip_prog (n := s.cur.txt.length + 1) (m := s.cur.txt.length + 1) (s := s) (by omega) (by omega)
  unfold rNext
  rcases h with ⟨s1, e, h1, h2⟩ | ⟨e, s1, h1, h2⟩
  · rw [e]
    simp only
    rcases rTok_prog (fl := fl) s1 with ⟨s', e, h⟩ | ⟨_, _, s', e, h⟩
    · exact .inl ⟨s', e⟩
    · exact .inr ⟨_, s', e⟩
  · rw [h1]
    exact .inr ⟨_, _, rfl⟩

theorem rNext_lexer : Lexer (rNext fl) AtEof where
  setStr _ _ h := h
  total := rNext_total
  run s hs := by
    by_cases he : s.tok = .eof
    · exact .inl ⟨_, rNext_eof (hs he), fun _ => hs he, .inr ⟨he, rfl⟩⟩
    · obtain ⟨_, h⟩ := rSkip_prog (n := s.cur.txt.length + 1) (m := s.cur.txt.length + 1) (s := s) (by omega) (by omega)
      unfold rNext
      rcases h with ⟨s1, e, h1, h2⟩ | ⟨e, s1, h1, h2⟩
      · rw [e]
        simp only
        rcases rTok_prog (fl := fl) s1 with ⟨s', e, h⟩ | ⟨_, _, s', e, h⟩
        · refine .inl ⟨s', e, ?_, .inl ?_⟩
          · rcases h with ⟨_, h2, h3⟩ | ⟨_, h2, _⟩
            · intro _; rw [h2]; exact h3
            · intro h; exact absurd h h2
          · rcases h with ⟨h, _⟩ | ⟨h, _⟩
            · exact left_lt he (.inl h)
            · exact left_lt he (.inr (by omega))
        · exact .inr ⟨_, s', e⟩
      · rw [h1]
        exact .inr ⟨_, _, rfl⟩

end NS
