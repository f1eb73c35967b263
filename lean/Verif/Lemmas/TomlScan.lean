import Verif.Spec.TomlRead
import Verif.Lemmas.TomlErr
/-! The TOML lexer reads exactly the spellings of `TSpells`. -/
namespace NS
variable {o : TomlOps}

theorem TEnds.iff {c : Cur} : TEnds c.txt ↔ c.ch = '\x00' := by
  cases h : c.txt with
  | nil => simp [TEnds, Cur.ch_nil h]
  | cons x t => rw [Cur.ch_cons h]; simp [TEnds]

theorem TWordEnds.iff {c : Cur} : TWordEnds c.txt ↔ isTTerm c.ch = true := by
  unfold TWordEnds
  rw [TEnds.iff]
  simp only [isTTerm, Blank, Bool.or_eq_true, beq_iff_eq]
  cases h : c.txt with
  | nil => simp [Cur.ch_nil h]
  | cons x t => rw [Cur.ch_cons h]; grind

theorem wordEnds_stop {r : List Char} (h : TWordEnds r) : StopAt (fun x => isTIdent x || x == '.') r := by
  intro x t e
  have h : isTTerm x = true := by
    have := (TWordEnds.iff (c := ⟨r, 0, 0⟩)).1 h
    rwa [Cur.ch_cons (c := ⟨r, 0, 0⟩) e] at this
  simp only [isTTerm, Bool.or_eq_true, beq_iff_eq] at h
  rcases h with (((((h | h) | h) | h) | h) | h) | h <;> subst h <;> decide

/-! ## Layout -/

theorem tSkip_ends {w r : List Char} (hw : TLayoutEnd w) (hr : TEnds r) {c : Cur} (hc : c.txt = w ++ r) :
    ∃ c', tComments (c.txt.length + 1) (c.span rcol isWs).2 = some c' ∧ c'.txt = r := by
  have stop : ∀ {p : Char → Bool}, p '\x00' = false → StopAt p r := by
    intro p hp x t e
    rcases hr with h | ⟨q, h⟩
    · rw [h] at e; cases e
    · rw [h] at e; cases e; exact hp
  rcases hw with h | ⟨a, b, ha, hb, hz, e⟩
  · exact tSkip_layout h (rest := r) (stop (by decide)) hc (by rw [hc]; simp; omega)
  · subst e
    have key : ∀ (a : List Char), TLayout a → ∀ (n : Nat) (c : Cur), c.txt = a ++ '#' :: (b ++ r) → a.length + 1 < n →
        ∃ c', tComments n (c.span rcol isWs).2 = some c' ∧ c'.txt = r := by
      intro a ha
      induction ha with
      | nil =>
        intro n c hc hn
        obtain ⟨n, rfl⟩ : ∃ m, n = m + 2 := ⟨n - 2, by simp at hn; omega⟩
        have hch : c.ch = '#' := Cur.ch_cons (t := b ++ r) (by simpa using hc)
        have hs : c.span rcol isWs = ([], c) := Cur.span_stop (by
          intro x t e
          rw [hc] at e
          injection e with e _
          rw [← e]; rfl)
        rw [hs]
        simp only [tComments, hch, if_true]
        have key := span_run (k := rcol) (p := fun x => x != '\n' && x != '\x00') (c := c)
          (a := '#' :: b) (b := r) (by rw [hc]; simp) (by
            intro y hy
            rcases List.mem_cons.1 hy with e | e
            · subst e; decide
            · have h1 : y ≠ '\n' := fun e' => hb (e' ▸ e)
              have h2 : y ≠ '\x00' := fun e' => hz (e' ▸ e)
              simp [h1, h2]) (stop (by decide))
        generalize (c.span rcol fun x => x != '\n' && x != '\x00').2 = d at key ⊢
        rw [Cur.span_stop (by intro x t e; rw [key.2] at e; exact stop (p := isWs) (by decide) x t e)]
        refine ⟨d, ?_, key.2⟩
        have : d.ch ≠ '#' := by
          have := (TEnds.iff (c := d)).1 (by rw [key.2]; exact hr)
          rw [this]; decide
        simp [this]
      | @space x w hx _ ih =>
        intro n c hc hn
        rw [Cur.span_step (x := x) (t := w ++ '#' :: (b ++ r)) (by simpa using hc) ((blank_iff x).1 hx)]
        exact ih _ _ (by rw [Cur.next_txt, hc]; rfl) (by simp at hn; omega)
      | @comment b' w hb' hz' _ ih =>
        intro n c hc hn
        obtain ⟨n, rfl⟩ : ∃ m, n = m + 1 := ⟨n - 1, by omega⟩
        have hch : c.ch = '#' := Cur.ch_cons (t := b' ++ '\n' :: (w ++ '#' :: (b ++ r))) (by simpa using hc)
        have hs : c.span rcol isWs = ([], c) := Cur.span_stop (by
          intro x t e
          rw [hc] at e
          injection e with e _
          rw [← e]; rfl)
        rw [hs]
        simp only [tComments, hch, if_true]
        have key := span_run (k := rcol) (p := fun x => x != '\n' && x != '\x00') (c := c)
          (a := '#' :: b') (b := '\n' :: (w ++ '#' :: (b ++ r))) (by rw [hc]; simp) (by
            intro y hy
            rcases List.mem_cons.1 hy with e | e
            · subst e; decide
            · have h1 : y ≠ '\n' := fun e' => hb' (e' ▸ e)
              have h2 : y ≠ '\x00' := fun e' => hz' (e' ▸ e)
              simp [h1, h2]) (StopAt.cons (by decide))
        rw [Cur.span_step (x := '\n') (t := w ++ '#' :: (b ++ r)) key.2 (by decide)]
        exact ih _ _ (by rw [Cur.next_txt, key.2]; rfl) (by simp at hn; omega)
    exact key a ha _ c (by rw [hc]; simp) (by rw [hc]; simp)

theorem TLayout.blanks {a w : List Char} (ha : ∀ x ∈ a, isWs x = true) (hw : TLayout w) : TLayout (a ++ w) := by
  induction a with
  | nil => exact hw
  | cons x a ih =>
    exact .space ((blank_iff x).2 (ha x List.mem_cons_self)) (ih fun y hy => ha y (List.mem_cons_of_mem _ hy))

/-- What is skipped is layout; a last comment only in front of the end. -/
theorem tComments_sound {n : Nat} : ∀ {c c1 : Cur}, tComments n c = some c1 →
    ∃ w, c.txt = w ++ c1.txt ∧ c1.ch ≠ '#' ∧ (TLayout w ∨ TLayoutEnd w ∧ TEnds c1.txt) := by
  induction n with
  | zero => intro c c1 h; cases h
  | succ n ih =>
    intro c c1 h
    simp only [tComments] at h
    split at h
    · rename_i hc
      obtain ⟨w, h1, h2, h3⟩ := ih h
      obtain ⟨d1, d2, d3⟩ := span_dec (fun x => x != '\n' && x != '\x00') c
      obtain ⟨e1, e2, e3⟩ := span_dec isWs (c.span rcol (fun x => x != '\n' && x != '\x00')).2
      generalize c.span rcol (fun x => x != '\n' && x != '\x00') = r1 at *
      generalize r1.2.span rcol isWs = r2 at *
      have hct : c.txt = '#' :: c.tnext.txt := by rw [← hc]; exact tnext_dec (by rw [hc]; decide)
      obtain ⟨b, hb⟩ : ∃ b, r1.1 = '#' :: b := by
        cases hr : r1.1 with
        | nil =>
          rw [hr, List.nil_append] at d1
          have := d3 '#' c.tnext.txt (by rw [← d1]; exact hct)
          exact absurd this (by decide)
        | cons y b =>
          rw [hr, hct] at d1
          injection d1 with d1 _
          exact ⟨b, by rw [d1]⟩
      have hbn : '\n' ∉ b := fun hm => by
        have := d2 '\n' (by rw [hb]; exact List.mem_cons_of_mem _ hm)
        revert this; decide
      have hbz : '\x00' ∉ b := fun hm => by
        have := d2 '\x00' (by rw [hb]; exact List.mem_cons_of_mem _ hm)
        revert this; decide
      refine ⟨r1.1 ++ r2.1 ++ w, by rw [d1, e1, h1]; simp, h2, ?_⟩
      cases hr : r1.2.txt with
      | nil =>
        rw [hr] at e1
        have e4 := List.append_eq_nil_iff.1 e1.symm
        rw [e4.2] at h1
        have e5 := List.append_eq_nil_iff.1 h1.symm
        refine .inr ⟨.inr ⟨[], b, .nil, hbn, hbz, ?_⟩, .inl e5.2⟩
        rw [hb, e4.1, e5.1]; simp
      | cons y q =>
        have hy := d3 y q hr
        simp only [Bool.and_eq_false_iff, bne_eq_false_iff_eq] at hy
        rcases hy with hy | hy
        · subst hy
          obtain ⟨r, hr2⟩ : ∃ r, r2.1 = '\n' :: r := by
            cases hx : r2.1 with
            | nil =>
              rw [hx, List.nil_append, hr] at e1
              have := e3 '\n' q e1.symm
              exact absurd this (by decide)
            | cons z r =>
              rw [hx, hr] at e1
              injection e1 with e1 _
              exact ⟨r, by rw [e1]⟩
          have hrw : ∀ x ∈ r, isWs x = true := fun x hx => e2 x (by rw [hr2]; exact List.mem_cons_of_mem _ hx)
          rw [hb, hr2]
          rcases h3 with h3 | ⟨h3, h4⟩
          · refine .inl ?_
            have := TLayout.comment hbn hbz (TLayout.blanks hrw h3)
            simpa using this
          · refine .inr ⟨?_, h4⟩
            rcases h3 with h3 | ⟨a, b', g1, g2, g3, rfl⟩
            · refine .inl ?_
              have := TLayout.comment hbn hbz (TLayout.blanks hrw h3)
              simpa using this
            · refine .inr ⟨_, b', TLayout.comment hbn hbz (TLayout.blanks hrw g1), g2, g3, ?_⟩
              simp
        · subst hy
          have hn : r2.1 = [] := by
            cases hx : r2.1 with
            | nil => rfl
            | cons z r =>
              rw [hx, hr] at e1
              injection e1 with e1 _
              have := e2 z (by rw [hx]; exact List.mem_cons_self)
              rw [← e1] at this
              exact absurd this (by decide)
          rw [hn, List.nil_append, hr] at e1
          have hch : r2.2.ch = '\x00' := Cur.ch_cons e1.symm
          have : c1 = r2.2 := by
            cases n with
            | zero => cases h
            | succ n =>
              simp only [tComments] at h
              rw [if_neg (by rw [hch]; decide)] at h
              cases h; rfl
          subst this
          have hw : w = [] := by
            have := congrArg List.length h1
            simp only [List.length_append] at this
            exact List.eq_nil_of_length_eq_zero (by omega)
          refine .inr ⟨.inr ⟨[], b, .nil, hbn, hbz, ?_⟩, TEnds.iff.2 hch⟩
          rw [hb, hn, hw]; simp
    · rename_i hc
      cases h
      exact ⟨[], rfl, hc, .inl .nil⟩

/-! ## Words -/

theorem wordIs_iff {w : List Char} {t : TTok} : TWordIs w t ↔
    t = (if w = ['t', 'r', 'u', 'e'] then .bool true
      else if w = ['f', 'a', 'l', 's', 'e'] then .bool false
      else if w = ['i', 'n', 'f'] then .inf false
      else if w = ['n', 'a', 'n'] then .nan false
      else .ident w) := by
  constructor
  · intro h
    cases h with
    | word hw =>
      simp only [tomlWords, List.mem_cons, List.not_mem_nil, or_false, Prod.mk.injEq] at hw
      rcases hw with ⟨rfl, rfl⟩ | ⟨rfl, rfl⟩ | ⟨rfl, rfl⟩ | ⟨rfl, rfl⟩ <;> rfl
    | name hw => exact (not_word hw).symm
  · intro h
    subst h
    split
    · rename_i h; subst h; exact .word (by simp [tomlWords])
    split
    · rename_i h; subst h; exact .word (by simp [tomlWords])
    split
    · rename_i h; subst h; exact .word (by simp [tomlWords])
    split
    · rename_i h; subst h; exact .word (by simp [tomlWords])
    · exact .name (by simp [tomlWords]; simp_all)

theorem tIdent_sound {start : List Char} {c c' : Cur} {t : TTok} (h : tIdent start c = .ok t c') :
    ∃ w, c.txt = w ++ c'.txt ∧ (∀ x ∈ w, Bare x ∨ x = '.') ∧ TWordEnds c'.txt ∧ TWordIs (start ++ w) t := by
  simp only [tIdent] at h
  obtain ⟨d1, d2, d3⟩ := span_dec (fun x => isTIdent x || x == '.') c
  split at h
  · rename_i ht
    injection h with h1 h2
    subst h2
    refine ⟨_, d1, ?_, TWordEnds.iff.2 ht, wordIs_iff.2 h1.symm⟩
    intro x hx
    have := d2 x hx
    simp only [Bool.or_eq_true, beq_iff_eq] at this
    exact this.imp (bare_iff x).2 id
  · cases h

theorem tIdent_complete {start w r : List Char} {t : TTok} (hw : ∀ x ∈ w, Bare x ∨ x = '.') (hr : TWordEnds r)
    (ht : TWordIs (start ++ w) t) {c : Cur} (hc : c.txt = w ++ r) : ∃ c', tIdent start c = .ok t c' ∧ c'.txt = r := by
  have key := span_run (k := rcol) (p := fun x => isTIdent x || x == '.') (c := c) hc (by
    intro x hx
    simp only [Bool.or_eq_true, beq_iff_eq]
    exact (hw x hx).imp (bare_iff x).1 id) (wordEnds_stop hr)
  refine ⟨(c.span rcol (fun x => isTIdent x || x == '.')).2, ?_, key.2⟩
  have he : isTTerm (c.span rcol (fun x => isTIdent x || x == '.')).2.ch = true := TWordEnds.iff.1 (by rw [key.2]; exact hr)
  simp only [tIdent, he, if_true, key.1]
  rw [wordIs_iff.1 ht]

/-! ## Strings -/

theorem tStrBody_short {n : Nat} : ∀ {val v : List Char} {c c' : Cur}, tStrBody false n val c = .ok v c' →
    c'.ch = '"' ∧ ∃ b s, TBody b s ∧ v = val ++ s ∧ c.txt = b ++ c'.txt := by
  induction n with
  | zero => intro val v c c' h; cases h
  | succ n ih =>
    intro val v c c' h
    simp only [tStrBody] at h
    split at h
    · rename_i hq
      simp only [Bool.false_eq_true, if_false] at h
      cases h
      exact ⟨hq, [], [], .nil, by simp, rfl⟩
    · rename_i hq
      split at h
      · rename_i hb
        have h0 := tnext_dec (c := c) (by rw [hb]; decide)
        rw [hb] at h0
        cases h1 : c.tnext.txt with
        | nil =>
          exact absurd h (tStrBody_nil false (by rw [Cur.tnext, Cur.next_txt, h1]; rfl) _ _ _ _)
        | cons x t =>
          obtain ⟨g1, b, s, g2, rfl, g3⟩ := ih h
          rw [tnext_cons h1] at g3
          rw [Cur.ch_cons h1]
          refine ⟨g1, '\\' :: x :: b, x :: s, .esc g2, by simp, ?_⟩
          rw [h0, h1, g3]; rfl
      · rename_i hb
        split at h
        · cases h
        · rename_i hz
          have h0 := tnext_dec hz
          obtain ⟨g1, b, s, g2, rfl, g3⟩ := ih h
          refine ⟨g1, c.ch :: b, c.ch :: s, .plain hq hb hz g2, by simp, ?_⟩
          rw [h0, g3]; simp [Cur.ch]

theorem quotes_replicate {a : List Char} (h : ∀ x ∈ a, (x == '"') = true) : a = List.replicate a.length '"' := by
  refine List.eq_replicate_iff.2 ⟨rfl, fun x hx => ?_⟩
  simpa using h x hx

theorem tStrBody_longer {n : Nat} : ∀ {val v : List Char} {c c' : Cur}, tStrBody true n val c = .ok v c' →
    c'.ch ≠ '"' ∧ ∃ b s, TLongBody b s ∧ v = val ++ s ∧ c.txt = b ++ '"' :: '"' :: '"' :: c'.txt := by
  induction n with
  | zero => intro val v c c' h; cases h
  | succ n ih =>
    intro val v c c' h
    simp only [tStrBody] at h
    split at h
    · rename_i hq
      simp only [if_true] at h
      obtain ⟨d1, d2, d3⟩ := span_dec (· == '"') c
      generalize c.span rcol (· == '"') = q at *
      have hne : q.1.length ≠ 0 := by
        intro e
        have e := List.eq_nil_of_length_eq_zero e
        rw [e, List.nil_append] at d1
        have h0 := tnext_dec (c := c) (by rw [hq]; decide)
        rw [hq] at h0
        have := d3 '"' _ (by rw [← d1]; exact h0)
        revert this; decide
      have hq2 : q.2.ch ≠ '"' := by
        cases e : q.2.txt with
        | nil => rw [Cur.ch_nil e]; decide
        | cons x t =>
          rw [Cur.ch_cons e]
          have := d3 x t e
          intro e'
          rw [e'] at this
          revert this; decide
      have hrep := quotes_replicate d2
      split at h
      · rename_i h3
        cases h
        rw [h3] at hrep
        refine ⟨hq2, [], [], .nil, by simp, ?_⟩
        rw [d1, hrep]; rfl
      · rename_i h3
        cases h1 : q.2.txt with
        | nil => exact absurd h (tStrBody_nil true (by rw [Cur.tnext, Cur.next_txt, h1]; rfl) _ _ _ _)
        | cons x t =>
          obtain ⟨g1, b, s, g2, rfl, g3⟩ := ih h
          rw [tnext_cons h1] at g3
          rw [Cur.ch_cons h1] at hq2 ⊢
          refine ⟨g1, _, _, .quotes hne h3 hq2 g2, by rw [hrep]; simp, ?_⟩
          rw [d1, h1, g3, ← hrep]; simp
    · rename_i hq
      split at h
      · rename_i hb
        have h0 := tnext_dec (c := c) (by rw [hb]; decide)
        rw [hb] at h0
        cases h1 : c.tnext.txt with
        | nil =>
          exact absurd h (tStrBody_nil true (by rw [Cur.tnext, Cur.next_txt, h1]; rfl) _ _ _ _)
        | cons x t =>
          obtain ⟨g1, b, s, g2, rfl, g3⟩ := ih h
          rw [tnext_cons h1] at g3
          rw [Cur.ch_cons h1]
          refine ⟨g1, '\\' :: x :: b, x :: s, .esc g2, by simp, ?_⟩
          rw [h0, h1, g3]; rfl
      · rename_i hb
        split at h
        · cases h
        · rename_i hz
          have h0 := tnext_dec hz
          obtain ⟨g1, b, s, g2, rfl, g3⟩ := ih h
          refine ⟨g1, c.ch :: b, c.ch :: s, .plain hq hb hz g2, by simp, ?_⟩
          rw [h0, g3]; simp [Cur.ch]

/-- Reading the body of a string in triple quotes. -/
theorem tStrBody_longBody {b s : List Char} (h : TLongBody b s) :
    ∀ {n : Nat} {c : Cur} {val rest : List Char}, c.txt = b ++ rest → b.length ≤ n →
      ∃ c' m, tStrBody true n val c = tStrBody true m (val ++ s) c' ∧ c'.txt = rest ∧ n ≤ m + b.length := by
  induction h with
  | nil => intro n c val rest hc hn; exact ⟨c, n, by simp, by simpa using hc, by simp⟩
  | @plain x b s h1 h2 h3 _ ih =>
    intro n c val rest hc hn
    obtain ⟨n, rfl⟩ : ∃ m, n = m + 1 := ⟨n - 1, by simp at hn; omega⟩
    have hx : c.ch = x := Cur.ch_cons hc
    obtain ⟨c', m, e, ht, hm⟩ := ih (n := n) (c := c.tnext) (val := val ++ [x]) (rest := rest) (tnext_cons hc) (by simp at hn; omega)
    refine ⟨c', m, ?_, ht, by simp; omega⟩
    simp only [tStrBody, hx, if_neg h1, if_neg h2, if_neg h3, e]
    simp
  | @esc x b s _ ih =>
    intro n c val rest hc hn
    obtain ⟨n, rfl⟩ : ∃ m, n = m + 1 := ⟨n - 1, by simp at hn; omega⟩
    have hx : c.ch = '\\' := Cur.ch_cons hc
    have h1 : c.tnext.txt = x :: (b ++ rest) := tnext_cons hc
    obtain ⟨c', m, e, ht, hm⟩ := ih (n := n) (c := c.tnext.tnext) (val := val ++ [x]) (rest := rest) (tnext_cons h1) (by simp at hn; omega)
    refine ⟨c', m, ?_, ht, by simp; omega⟩
    simp only [tStrBody, hx, Cur.ch_cons h1, if_neg (show '\\' ≠ '"' by decide), if_true, e]
    simp
  | @quotes k x b s h0 h3 hx _ ih =>
    intro n c val rest hc hn
    obtain ⟨n, rfl⟩ : ∃ m, n = m + 1 := ⟨n - 1, by simp at hn; omega⟩
    have hc' : c.txt = List.replicate k '"' ++ x :: (b ++ rest) := by rw [hc]; simp
    obtain ⟨k', rfl⟩ : ∃ k', k = k' + 1 := ⟨k - 1, by omega⟩
    have hq : c.ch = '"' := Cur.ch_cons (by rw [hc']; rfl)
    have key := span_run (k := rcol) (p := (· == '"')) (c := c) hc' (by
      intro y hy; rw [List.eq_of_mem_replicate hy]; rfl) (StopAt.cons (by simpa using hx))
    simp only [tStrBody, hq, if_true]
    generalize c.span rcol (· == '"') = q at *
    obtain ⟨c', m, e, ht, hm⟩ := ih (n := n) (c := q.2.tnext) (val := val ++ q.1 ++ [x]) (rest := rest) (tnext_cons key.2)
      (by simp at hn; omega)
    refine ⟨c', m, ?_, ht, by simp; omega⟩
    rw [if_neg (by rw [key.1]; simpa using h3), Cur.ch_cons key.2, e, key.1]
    simp

theorem tQuotes_sound (c : Cur) : (tQuotes 2 c).1 ≤ 2 ∧
    c.txt = List.replicate (tQuotes 2 c).1 '"' ++ (tQuotes 2 c).2.txt ∧ ((tQuotes 2 c).1 < 2 → (tQuotes 2 c).2.ch ≠ '"') := by
  refine ⟨?_, (tQuotes_local 2 c).1, ?_⟩
  · simp only [tQuotes]
    split
    · split <;> simp
    · simp
  · simp only [tQuotes]
    split
    · split
      · simp
      · intro _; assumption
    · intro _; assumption

theorem tStr_sound {c c' : Cur} {t : TTok} (hc : c.ch = '"') (h : tStr c = .ok t c') :
    ∃ s, c.txt = s ++ c'.txt ∧ TSpells o s c'.txt t := by
  have h0 := tnext_dec (c := c) (by rw [hc]; decide)
  rw [hc] at h0
  simp only [tStr] at h
  obtain ⟨q1, q2, q3⟩ := tQuotes_sound c.tnext
  generalize tQuotes 2 c.tnext = q at *
  generalize hl : (q.1 == 2) = l at h
  split at h
  · rename_i val d hb
    injection h with h1 h2
    subst h1 h2
    cases l with
    | true =>
      have hl : q.1 = 2 := by simpa using hl
      obtain ⟨g1, b, s, g2, g3, g4⟩ := tStrBody_longer hb
      rw [List.nil_append] at g3
      subst g3
      rw [hl] at q2
      cases hd : d.txt with
      | nil =>
        have : d.tnext.txt = [] := by rw [Cur.tnext, Cur.next_txt, hd]; rfl
        rw [this]
        refine ⟨_, ?_, .longEnd g2⟩
        rw [h0, q2, g4, hd]; simp [List.replicate]
      | cons x t =>
        rw [Cur.ch_cons hd] at g1
        rw [tnext_cons hd]
        refine ⟨_, ?_, .long g2 g1⟩
        rw [h0, q2, g4, hd]; simp [List.replicate]
    | false =>
      have hl : q.1 ≠ 2 := by simpa using hl
      obtain ⟨g1, b, s, g2, g3, g4⟩ := tStrBody_short hb
      rw [List.nil_append] at g3
      subst g3
      have g5 := tnext_dec (c := d) (by rw [g1]; decide)
      rw [g1] at g5
      have hne : b ≠ [] := by
        intro e
        subst e
        have := q3 (by omega)
        apply this
        rw [Cur.ch_eq, g4, List.nil_append, g5]; rfl
      have hq : List.replicate q.1 '"' = [] ∨ List.replicate q.1 '"' = ['"'] := by
        rcases (by omega : q.1 = 0 ∨ q.1 = 1) with e | e <;> simp [e]
      refine ⟨_, ?_, .str hq hne g2⟩
      rw [h0, q2, g4, g5]; simp
  · cases h
  · cases h
  · cases h

theorem tStr_str {q b s r : List Char} (hq : q = [] ∨ q = ['"']) (hb : b ≠ []) (h : TBody b s) {c : Cur}
    (hc : c.txt = '"' :: (q ++ b ++ ['"']) ++ r) : ∃ c', tStr c = .ok (.str s) c' ∧ c'.txt = r := by
  rcases hq with rfl | rfl
  · exact tStr_short hb h (by rw [hc]; simp)
  · have h1 : c.tnext.txt = '"' :: (b ++ '"' :: r) := tnext_cons (by rw [hc]; simp; rfl)
    have h2 : c.tnext.tnext.txt = b ++ '"' :: r := tnext_cons h1
    have hq : tQuotes 2 c.tnext = (1, c.tnext.tnext) := by
      have : c.tnext.tnext.ch ≠ '"' := by
        rcases h.head with e | ⟨x, t, e, hx⟩
        · exact absurd e hb
        · rw [Cur.ch_cons (t := t ++ '"' :: r) (by rw [h2, e]; rfl)]; exact hx
      simp [tQuotes, Cur.ch_cons h1, this]
    obtain ⟨c', m, e, ht, hm⟩ := tStrBody_body (long := false) h (n := c.tnext.tnext.txt.length + 2) (val := []) h2
      (by rw [h2]; simp; omega)
    refine ⟨c'.tnext, ?_, tnext_cons ht⟩
    obtain ⟨m, rfl⟩ : ∃ k, m = k + 1 := ⟨m - 1, by rw [h2] at hm; simp at hm; omega⟩
    simp only [tStr, hq]
    rw [show ((1 : Nat) == 2) = false from rfl, e]
    simp [tStrBody, Cur.ch_cons ht]

theorem tStr_longBody {b s r : List Char} (h : TLongBody b s) {c : Cur}
    (hr : r.head? ≠ some '"')
    (hc : c.txt = '"' :: '"' :: '"' :: (b ++ '"' :: '"' :: '"' :: r)) :
    ∃ c', tStr c = .ok (.str s) c' ∧ c'.txt = r.tail := by
  have h1 : c.tnext.txt = '"' :: '"' :: (b ++ '"' :: '"' :: '"' :: r) := tnext_cons hc
  have h2 : c.tnext.tnext.txt = '"' :: (b ++ '"' :: '"' :: '"' :: r) := tnext_cons h1
  have h3 : c.tnext.tnext.tnext.txt = b ++ '"' :: '"' :: '"' :: r := tnext_cons h2
  have hq : tQuotes 2 c.tnext = (2, c.tnext.tnext.tnext) := by
    simp [tQuotes, Cur.ch_cons h1, Cur.ch_cons h2]
  obtain ⟨c', m, e, ht, hm⟩ := tStrBody_longBody h (n := c.tnext.tnext.tnext.txt.length + 2) (val := []) h3
    (by rw [h3]; simp; omega)
  obtain ⟨m, rfl⟩ : ∃ k, m = k + 1 := ⟨m - 1, by rw [h3] at hm; simp at hm; omega⟩
  have key := span_run (k := rcol) (p := (· == '"')) (c := c') (a := ['"', '"', '"']) (b := r) (by rw [ht]; rfl)
    (by intro y hy; simp at hy; subst hy; rfl) (by
      intro y q e'
      rw [e'] at hr
      simpa using hr)
  refine ⟨(c'.span rcol (· == '"')).2.tnext, ?_, by rw [Cur.tnext, Cur.next_txt, key.2]⟩
  simp only [tStr, hq]
  rw [show ((2 : Nat) == 2) = true from rfl, e]
  simp only [tStrBody, Cur.ch_cons ht, if_true, key.1]
  rfl

end NS
