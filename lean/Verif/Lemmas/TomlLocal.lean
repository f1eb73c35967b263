import Verif.Lemmas.TomlHalts
/-! What the TOML parser reads from a text it reads from the part consumed alone. -/
namespace NS
variable {o : TomlOps}

/-- The result depends only on the consumed part `b` of the text. -/
def TLocal {α : Type} (x : TM α) (c : Cur) : Prop := ∀ a c1, x c = .ok a c1 →
  ∃ b, c.txt = b ++ c1.txt ∧ ∀ s q c', c1.txt = s ++ q → c'.txt = b ++ s →
    ∃ c1', x c' = .ok a c1' ∧ c1'.txt = s

theorem ch_prefix {c c' : Cur} {s q : List Char} (h : c.txt = s ++ q) (h' : c'.txt = s) :
    c'.ch = c.ch ∨ c'.ch = '\x00' := by
  cases s with
  | nil => right; simp [Cur.ch, h']
  | cons x s => left; simp [Cur.ch, h', h]

theorem ch_front {c c' : Cur} {b r s : List Char} (hb : b ≠ []) (h : c.txt = b ++ r) (h' : c'.txt = b ++ s) :
    c'.ch = c.ch := by
  cases b with
  | nil => exact absurd rfl hb
  | cons x b => simp [Cur.ch, h', h]

theorem span_dec (p : Char → Bool) (c : Cur) : c.txt = (c.span rcol p).1 ++ (c.span rcol p).2.txt ∧
    (∀ x ∈ (c.span rcol p).1, p x = true) ∧ (∀ x t, (c.span rcol p).2.txt = x :: t → p x = false) := by
  suffices h : ∀ (n : Nat) (c : Cur), c.txt.length ≤ n → c.txt = (c.span rcol p).1 ++ (c.span rcol p).2.txt ∧
      (∀ x ∈ (c.span rcol p).1, p x = true) ∧ (∀ x t, (c.span rcol p).2.txt = x :: t → p x = false) from h _ c (Nat.le_refl _)
  intro n
  induction n with
  | zero =>
    intro c h
    have h : c.txt = [] := List.eq_nil_of_length_eq_zero (by omega)
    rw [Cur.span_stop (by intro x t e; rw [h] at e; cases e)]
    refine ⟨rfl, by simp, ?_⟩
    intro x t e; simp only [h] at e; cases e
  | succ n ih =>
    intro c h
    cases hc : c.txt with
    | nil =>
      rw [Cur.span_stop (by intro x t e; rw [hc] at e; cases e)]
      refine ⟨hc.symm, by simp, ?_⟩
      intro x t e; simp only [hc] at e; cases e
    | cons y t =>
      by_cases hy : p y = true
      · have hs : c.span rcol p = (y :: ((c.next rcol).span rcol p).1, ((c.next rcol).span rcol p).2) := by
          have e1 := Cur.span_step (k := rcol) hc hy
          obtain ⟨tx, l, co⟩ := c
          simp only at hc
          subst hc
          rw [Prod.ext_iff]
          refine ⟨?_, e1⟩
          have hn := Cur.next_txt rcol ⟨y :: t, l, co⟩
          simp only [List.tail_cons] at hn
          simp only [Cur.span, Cur.spanAux, hy, if_true]
          rw [hn]
        rw [hs]
        obtain ⟨h1, h2, h3⟩ := ih (c.next rcol) (by rw [Cur.next_txt, hc]; rw [hc] at h; simpa using h)
        refine ⟨?_, ?_, h3⟩
        · rw [Cur.next_txt, hc] at h1
          rw [List.tail_cons] at h1
          rw [List.cons_append, ← h1]
        · intro x hx
          rcases List.mem_cons.1 hx with rfl | hx
          · exact hy
          · exact h2 x hx
      · rw [Cur.span_stop (by intro x t e; rw [hc] at e; cases e; simpa using hy)]
        refine ⟨hc.symm, by simp, ?_⟩
        intro x t' e; simp only [hc] at e; cases e; simpa using hy

/-- A maximal run is found again in every prefix of the text that contains it. -/
theorem span_local (p : Char → Bool) (c : Cur) : ∀ (c' : Cur) (s q : List Char),
    (c.span rcol p).2.txt = s ++ q → c'.txt = (c.span rcol p).1 ++ s →
    (c'.span rcol p).1 = (c.span rcol p).1 ∧ (c'.span rcol p).2.txt = s := by
  intro c' s q h h'
  obtain ⟨-, h2, h3⟩ := span_dec p c
  obtain ⟨g1, g2, g3⟩ := span_dec p c'
  generalize (c.span rcol p).1 = b at *
  generalize (c'.span rcol p).1 = b' at *
  generalize (c.span rcol p).2.txt = r at *
  generalize (c'.span rcol p).2.txt = r' at *
  subst h
  rw [h'] at g1
  clear h'
  induction b generalizing b' with
  | nil =>
    cases b' with
    | nil => exact ⟨rfl, g1.symm⟩
    | cons x b' =>
      simp only [List.nil_append, List.cons_append] at g1
      have := h3 x (b' ++ r' ++ q) (by rw [g1]; simp)
      rw [g2 x List.mem_cons_self] at this; cases this
  | cons x b ih =>
    cases b' with
    | nil =>
      simp only [List.nil_append, List.cons_append] at g1
      have := g3 x _ g1.symm
      rw [h2 x List.mem_cons_self] at this; cases this
    | cons y b' =>
      simp only [List.cons_append, List.cons.injEq] at g1
      obtain ⟨rfl, g1⟩ := g1
      obtain ⟨e1, e2⟩ := ih (fun z hz => h2 z (List.mem_cons_of_mem _ hz)) b' (fun z hz => g2 z (List.mem_cons_of_mem _ hz)) g1
      exact ⟨by rw [e1], e2⟩

theorem tnext_dec {c : Cur} (h : c.ch ≠ '\x00') : c.txt = c.ch :: c.tnext.txt := by
  rw [Cur.tnext, Cur.next_txt]
  cases hc : c.txt with
  | nil => exact absurd (by simp [Cur.ch, hc]) h
  | cons x t => simp [Cur.ch, hc]

theorem tnext_cons {c : Cur} {x : Char} {t : List Char} (h : c.txt = x :: t) : c.tnext.txt = t := by
  rw [Cur.tnext, Cur.next_txt, h]; rfl

theorem tComments_local {n : Nat} : ∀ {c c1 : Cur}, tComments n c = some c1 →
    ∃ b, c.txt = b ++ c1.txt ∧ ∀ s q c' m, c1.txt = s ++ q → c'.txt = b ++ s → b.length < m →
      ∃ c1', tComments m c' = some c1' ∧ c1'.txt = s := by
  induction n with
  | zero => intro c c1 h; cases h
  | succ n ih =>
    intro c c1 h
    simp only [tComments] at h
    split at h
    · rename_i hc
      obtain ⟨b, hb, hl⟩ := ih h
      have d1 := (span_dec (fun x => x != '\n' && x != '\x00') c).1
      have l1 := span_local (fun x => x != '\n' && x != '\x00') (c)
      have hlt : (c.span rcol (fun x => x != '\n' && x != '\x00')).2.txt.length < c.txt.length :=
        span_len_lt rcol (by rw [hc]; decide) (by decide)
      have d2 := (span_dec isWs (c.span rcol (fun x => x != '\n' && x != '\x00')).2).1
      have l2 := span_local (isWs) ((c.span rcol (fun x => x != '\n' && x != '\x00')).2)
      generalize hr1 : c.span rcol (fun x => x != '\n' && x != '\x00') = r1 at *
      generalize hr2 : r1.2.span rcol isWs = r2 at *
      have hne : r1.1 ≠ [] := by
        intro e
        rw [e] at d1
        simp only [List.nil_append] at d1
        rw [d1] at hlt; omega
      have d : c.txt = (r1.1 ++ r2.1 ++ b) ++ c1.txt := by rw [d1, d2, hb]; simp
      refine ⟨r1.1 ++ r2.1 ++ b, d, ?_⟩
      intro s q c' m h1 h2 hm
      obtain ⟨m, rfl⟩ : ∃ k, m = k + 1 := ⟨m - 1, by omega⟩
      have hc' : c'.ch = '#' := by
        rw [← hc]
        exact ch_front (b := r1.1 ++ r2.1 ++ b) (by simp [hne]) d h2
      have e1 := l1 (c') (r2.1 ++ b ++ s) q (by rw [d2, hb, h1]; simp) (by rw [h2]; simp)
      have e2 := l2 ((c'.span rcol (fun x => x != '\n' && x != '\x00')).2) (b ++ s) q (by rw [hb, h1]; simp)
        (by rw [e1.2]; simp)
      simp only [tComments, if_pos hc']
      refine hl s q _ m h1 e2.2 ?_
      have : 0 < r1.1.length := List.length_pos_iff.2 hne
      simp only [List.length_append] at hm
      omega
    · rename_i hc
      cases h
      refine ⟨[], rfl, ?_⟩
      intro s q c' m h1 h2 hm
      obtain ⟨m, rfl⟩ : ∃ k, m = k + 1 := ⟨m - 1, by omega⟩
      refine ⟨c', ?_, h2⟩
      have : c'.ch ≠ '#' := by
        rcases ch_prefix h1 h2 with e | e
        · rw [e]; exact hc
        · rw [e]; decide
      simp only [tComments, if_neg this]

theorem tQuotes_local (n : Nat) : ∀ c : Cur, c.txt = List.replicate (tQuotes n c).1 '"' ++ (tQuotes n c).2.txt ∧
    ∀ s q c', (tQuotes n c).2.txt = s ++ q → c'.txt = List.replicate (tQuotes n c).1 '"' ++ s →
      (tQuotes n c').1 = (tQuotes n c).1 ∧ (tQuotes n c').2.txt = s := by
  induction n with
  | zero => intro c; exact ⟨rfl, fun s q c' _ h => ⟨rfl, h⟩⟩
  | succ n ih =>
    intro c
    simp only [tQuotes]
    split
    · rename_i hc
      obtain ⟨h1, h2⟩ := ih c.tnext
      have hd := tnext_dec (c := c) (by rw [hc]; decide)
      rw [hc] at hd
      refine ⟨by rw [hd]; simp only [List.replicate_succ, List.cons_append, ← h1], ?_⟩
      intro s q c' g1 g2
      simp only [List.replicate_succ, List.cons_append] at g2
      rw [if_pos (Cur.ch_cons g2)]
      obtain ⟨e1, e2⟩ := h2 s q c'.tnext g1 (tnext_cons g2)
      exact ⟨by simp only [e1], e2⟩
    · rename_i hc
      refine ⟨rfl, ?_⟩
      intro s q c' g1 g2
      simp only [List.replicate_zero, List.nil_append] at g1 g2
      rw [if_neg (by
        rcases ch_prefix g1 g2 with e | e
        · rw [e]; exact hc
        · rw [e]; decide)]
      exact ⟨rfl, g2⟩

theorem tWord_local (w : List Char) (hw : '\x00' ∉ w) : ∀ c : Cur, c.txt = (tWord w c).1 ++ (tWord w c).2.2.txt ∧
    ∀ s q c', (tWord w c).2.2.txt = s ++ q → c'.txt = (tWord w c).1 ++ s →
      (tWord w c').1 = (tWord w c).1 ∧ (tWord w c').2.1 = (tWord w c).2.1 ∧ (tWord w c').2.2.txt = s := by
  induction w with
  | nil => intro c; exact ⟨rfl, fun s q c' _ h => ⟨rfl, rfl, h⟩⟩
  | cons x w ih =>
    intro c
    simp only [List.mem_cons, not_or] at hw
    simp only [tWord]
    split
    · rename_i hc
      obtain ⟨h1, h2⟩ := ih hw.2 c.tnext
      have hd := tnext_dec (c := c) (by rw [hc]; exact Ne.symm hw.1)
      rw [hc] at hd
      refine ⟨by rw [hd]; simp only [List.cons_append, ← h1], ?_⟩
      intro s q c' g1 g2
      simp only [List.cons_append] at g2
      rw [if_pos (Cur.ch_cons g2)]
      obtain ⟨e1, e2, e3⟩ := h2 s q c'.tnext g1 (tnext_cons g2)
      exact ⟨by simp only [e1], e2, e3⟩
    · rename_i hc
      refine ⟨rfl, ?_⟩
      intro s q c' g1 g2
      simp only [List.nil_append] at g1 g2
      rw [if_neg (by
        rcases ch_prefix g1 g2 with e | e
        · rw [e]; exact hc
        · rw [e]; exact hw.1)]
      exact ⟨rfl, rfl, g2⟩

theorem tStrBody_nil (long : Bool) {c : Cur} (h : c.txt = []) (n : Nat) (val v : List Char) (c1 : Cur) :
    tStrBody long n val c ≠ .ok v c1 := by
  cases n with
  | zero => intro e; cases e
  | succ n =>
    have hc : c.ch = '\x00' := by simp [Cur.ch, h]
    simp only [tStrBody, hc]
    intro e
    simp at e
    cases e

theorem tStrBody_local (long : Bool) {n : Nat} : ∀ {c c1 : Cur} {val v : List Char},
    tStrBody long n val c = .ok v c1 → (long = false → c1.ch = '"') ∧
    ∃ b, c.txt = b ++ c1.txt ∧ (long = true → b ≠ []) ∧ ∀ s q c' m, c1.txt = s ++ q → c'.txt = b ++ s → b.length < m →
      (long = false → s ≠ []) → ∃ c1', tStrBody long m val c' = .ok v c1' ∧ c1'.txt = s := by
  induction n with
  | zero => intro c c1 val v h; cases h
  | succ n ih =>
    intro c c1 val v h
    simp only [tStrBody] at h
    split at h
    · rename_i hc
      split at h
      · rename_i hlong
        subst hlong
        have d1 := (span_dec (· == '"') c).1
        have l1 := span_local ((· == '"')) (c)
        have hlt : (c.span rcol (· == '"')).2.txt.length < c.txt.length := span_len_lt rcol (by rw [hc]; rfl) (by decide)
        generalize hr1 : c.span rcol (· == '"') = r1 at *
        have hne : r1.1 ≠ [] := by
          intro e
          rw [e] at d1
          simp only [List.nil_append] at d1
          rw [d1] at hlt; omega
        split at h
        · rename_i h3
          cases h
          refine ⟨by simp, r1.1, d1, fun _ => hne, ?_⟩
          intro s q c' m g1 g2 hm _
          obtain ⟨m, rfl⟩ : ∃ k, m = k + 1 := ⟨m - 1, by omega⟩
          obtain ⟨e1, e2⟩ := l1 (c') _ _ g1 g2
          refine ⟨(c'.span rcol (· == '"')).2, ?_, e2⟩
          have hc' : c'.ch = '"' := by rw [← hc]; exact ch_front hne d1 g2
          simp only [tStrBody, if_pos hc', e1, h3, if_true]
        · rename_i h3
          obtain ⟨i1, b, hb, i2, hl⟩ := ih h
          have hx : r1.2.txt ≠ [] := by
            intro e
            refine tStrBody_nil true (c := r1.2.tnext) ?_ _ _ _ _ h
            rw [Cur.tnext, Cur.next_txt, e]; rfl
          obtain ⟨x, t, hxt⟩ := List.exists_cons_of_ne_nil hx
          rw [tnext_cons hxt] at hb
          have d2 : c.txt = (r1.1 ++ x :: b) ++ c1.txt := by rw [d1, hxt, hb]; simp
          refine ⟨i1, r1.1 ++ x :: b, d2, fun _ => by simp, ?_⟩
          intro s q c' m g1 g2 hm g3
          obtain ⟨m, rfl⟩ : ∃ k, m = k + 1 := ⟨m - 1, by omega⟩
          obtain ⟨e1, e2⟩ := l1 (c') (x :: b ++ s) q (by rw [hxt, hb, g1]; simp) (by rw [g2]; simp)
          have hc' : c'.ch = '"' := by rw [← hc]; exact ch_front (by simp [hne]) d2 g2
          have hq : (c'.span rcol (· == '"')).2.ch = r1.2.ch := by rw [Cur.ch_cons e2, Cur.ch_cons hxt]
          simp only [tStrBody, if_pos hc', e1, h3, if_true, if_false, hq]
          refine hl s q _ m g1 (tnext_cons e2) ?_ g3
          simp only [List.length_append, List.length_cons] at hm
          omega
      · rename_i hlong
        cases h
        refine ⟨fun _ => hc, [], rfl, fun e => absurd e hlong, ?_⟩
        intro s q c' m g1 g2 hm g3
        obtain ⟨m, rfl⟩ : ∃ k, m = k + 1 := ⟨m - 1, by omega⟩
        refine ⟨c', ?_, g2⟩
        have hc' : c'.ch = '"' := by rw [← hc]; exact ch_front (b := s) (r := q) (s := []) (g3 (by simpa using hlong)) g1 (by simpa using g2)
        simp only [tStrBody, if_pos hc', if_neg hlong]
    · rename_i hc
      split at h
      · rename_i hbs
        obtain ⟨i1, b, hb, i2, hl⟩ := ih h
        have hd := tnext_dec (c := c) (by rw [hbs]; decide)
        rw [hbs] at hd
        have hx : c.tnext.txt ≠ [] := by
          intro e
          refine tStrBody_nil long (c := c.tnext.tnext) ?_ _ _ _ _ h
          rw [Cur.tnext, Cur.next_txt, e]; rfl
        obtain ⟨x, t, hxt⟩ := List.exists_cons_of_ne_nil hx
        rw [tnext_cons hxt] at hb
        rw [hxt, hb] at hd
        refine ⟨i1, '\\' :: x :: b, by rw [hd]; simp, by simp, ?_⟩
        intro s q c' m g1 g2 hm g3
        obtain ⟨m, rfl⟩ : ∃ k, m = k + 1 := ⟨m - 1, by omega⟩
        have g2 : c'.txt = '\\' :: x :: (b ++ s) := by simpa using g2
        have hc' : c'.ch = '\\' := Cur.ch_cons g2
        have e1 := tnext_cons g2
        have hq : c'.tnext.ch = c.tnext.ch := by rw [Cur.ch_cons e1, Cur.ch_cons hxt]
        simp only [tStrBody, hc', hq]
        rw [if_neg (by decide), if_pos True.intro]
        refine hl s q _ m g1 (tnext_cons e1) ?_ g3
        simp only [List.length_cons] at hm
        omega
      · rename_i hbs
        split at h
        · cases h
        · rename_i hz
          obtain ⟨i1, b, hb, i2, hl⟩ := ih h
          have hd := tnext_dec hz
          rw [hb] at hd
          refine ⟨i1, c.ch :: b, by rw [hd]; simp [Cur.ch], by simp, ?_⟩
          intro s q c' m g1 g2 hm g3
          obtain ⟨m, rfl⟩ : ∃ k, m = k + 1 := ⟨m - 1, by omega⟩
          have hc' : c'.ch = c.ch := Cur.ch_cons (t := b ++ s) (by simpa using g2)
          simp only [tStrBody, hc', if_neg hc, if_neg hbs, if_neg hz]
          refine hl s q _ m g1 (tnext_cons (by simpa using g2)) ?_ g3
          simp only [List.length_cons] at hm
          omega

theorem tStr_local {c : Cur} (hc : c.ch = '"') : TLocal tStr c := by
  intro a c1 h
  simp only [tStr] at h
  have hd := tnext_dec (c := c) (by rw [hc]; decide)
  rw [hc] at hd
  obtain ⟨q1, q2⟩ := tQuotes_local 2 c.tnext
  generalize hr : tQuotes 2 c.tnext = r at *
  cases hx : tStrBody (r.1 == 2) (r.2.txt.length + 2) [] r.2 with
  | err e s => rw [hx] at h; cases h
  | panic => rw [hx] at h; cases h
  | oof => rw [hx] at h; cases h
  | ok v c2 =>
    rw [hx] at h
    simp only [Out.ok.injEq] at h
    obtain ⟨rfl, rfl⟩ := h
    obtain ⟨i1, b, hb, i2, hl⟩ := tStrBody_local _ hx
    -- the text after the closing quotes
    have key : ∀ e t, c2.txt = e ++ t → (∀ u : Cur, u.txt = e ++ t → u.tnext.txt = t) →
        (∀ s q, t = s ++ q → ∀ u : Cur, u.txt = e ++ s → u.tnext.txt = s) → ((r.1 == 2) = false → e ≠ []) →
        ∃ b, c.txt = b ++ c2.tnext.txt ∧ ∀ s q c', c2.tnext.txt = s ++ q → c'.txt = b ++ s →
          ∃ c1', tStr c' = .ok (.str v) c1' ∧ c1'.txt = s := by
      intro e t he ht hs hne
      have hct := ht c2 he
      refine ⟨'"' :: (List.replicate r.1 '"' ++ (b ++ e)), by rw [hd, q1, hb, he, hct]; simp, ?_⟩
      intro s q c' g1 g2
      rw [hct] at g1
      have g2 : c'.txt = '"' :: (List.replicate r.1 '"' ++ (b ++ e ++ s)) := by rw [g2]; simp
      obtain ⟨e1, e2⟩ := q2 (b ++ e ++ s) q c'.tnext (by rw [hb, he, g1]; simp) (tnext_cons g2)
      obtain ⟨c3, e3, e4⟩ := hl (e ++ s) q (tQuotes 2 c'.tnext).2 ((tQuotes 2 c'.tnext).2.txt.length + 2) (by rw [he, g1]; simp)
        (by rw [e2]; simp) (by rw [e2]; simp only [List.length_append]; omega) (by
          intro h0; have := hne h0; simp [this])
      refine ⟨c3.tnext, ?_, hs s q g1 c3 e4⟩
      simp only [tStr, e1, e3]
    cases hct : c2.txt with
    | nil =>
      refine key [] [] (by simpa using hct) (fun u hu => by rw [Cur.tnext, Cur.next_txt, hu]; rfl) ?_ ?_
      · intro s q hsq u hu
        have : s = [] := (List.append_eq_nil_iff.1 hsq.symm).1
        subst this
        rw [Cur.tnext, Cur.next_txt, hu]; rfl
      · intro h0
        have := i1 h0
        rw [Cur.ch, hct] at this
        exact absurd this (by decide)
    | cons x t =>
      refine key [x] t (by simpa using hct) (fun u hu => tnext_cons (by simpa using hu)) ?_ (by simp)
      intro s q _ u hu
      exact tnext_cons (by simpa using hu)

theorem tIdent_local (start : List Char) (c : Cur) : TLocal (tIdent start) c := by
  intro a c1 h
  simp only [tIdent] at h
  split at h
  · rename_i ht
    have d1 := (span_dec (fun x => isTIdent x || x == '.') c).1
    have l1 := span_local (fun x => isTIdent x || x == '.') (c)
    generalize hr1 : c.span rcol (fun x => isTIdent x || x == '.') = r1 at *
    simp only [Out.ok.injEq] at h
    obtain ⟨h1, h2⟩ := h
    subst h2
    refine ⟨r1.1, d1, ?_⟩
    intro s q c' g1 g2
    obtain ⟨e1, e2⟩ := l1 (c') _ _ g1 g2
    refine ⟨(c'.span rcol (fun x => isTIdent x || x == '.')).2, ?_, e2⟩
    have : isTTerm (c'.span rcol (fun x => isTIdent x || x == '.')).2.ch = true := by
      rcases ch_prefix g1 e2 with e | e
      · rw [e]; exact ht
      · rw [e]; decide
    simp only [tIdent, e1, if_pos this, h1]
  · cases h

theorem tNumRest_local (neg : Bool) (num : List Char) (c : Cur) : TLocal (tNumRest o neg num) c := by
  intro a c1 h
  simp only [tNumRest] at h
  have d1 := (span_dec isDigU c).1
  have l1 := span_local (isDigU) (c)
  generalize hr1 : c.span rcol isDigU = r1 at *
  split at h
  · rename_i hc
    have dd := tnext_dec (c := r1.2) (by rw [hc]; decide)
    rw [hc] at dd
    have d2 := (span_dec isDigU r1.2.tnext).1
    have l2 := span_local (isDigU) (r1.2.tnext)
    generalize hr2 : r1.2.tnext.span rcol isDigU = r2 at *
    cases hx : o.parse64 (num ++ r1.1.filter (· != '_') ++ '.' :: r2.1.filter (· != '_')) with
    | none => rw [hx] at h; cases h
    | some x =>
      rw [hx] at h
      simp only [Out.ok.injEq] at h
      obtain ⟨rfl, rfl⟩ := h
      refine ⟨r1.1 ++ '.' :: r2.1, by rw [d1, dd, d2]; simp, ?_⟩
      intro s q c' g1 g2
      obtain ⟨e1, e2⟩ := l1 (c') ('.' :: (r2.1 ++ s)) q (by rw [dd, d2, g1]; simp) (by rw [g2]; simp)
      obtain ⟨e3, e4⟩ := l2 ((c'.span rcol isDigU).2.tnext) _ _ g1 (tnext_cons e2)
      refine ⟨((c'.span rcol isDigU).2.tnext.span rcol isDigU).2, ?_, e4⟩
      simp only [tNumRest, Cur.ch_cons e2, if_true, e1, e3, hx]
  · rename_i hdot
    split at h
    · rename_i hc
      have dd := tnext_dec (c := r1.2) (by rw [hc]; decide)
      rw [hc] at dd
      have d2 := (span_dec isTDate r1.2.tnext).1
      have l2 := span_local (isTDate) (r1.2.tnext)
      generalize hr2 : r1.2.tnext.span rcol isTDate = r2 at *
      simp only [Out.ok.injEq] at h
      obtain ⟨rfl, rfl⟩ := h
      refine ⟨r1.1 ++ '-' :: r2.1, by rw [d1, dd, d2]; simp, ?_⟩
      intro s q c' g1 g2
      obtain ⟨e1, e2⟩ := l1 (c') ('-' :: (r2.1 ++ s)) q (by rw [dd, d2, g1]; simp) (by rw [g2]; simp)
      obtain ⟨e3, e4⟩ := l2 ((c'.span rcol isDigU).2.tnext) _ _ g1 (tnext_cons e2)
      refine ⟨((c'.span rcol isDigU).2.tnext.span rcol isTDate).2, ?_, e4⟩
      simp only [tNumRest, Cur.ch_cons e2, e1, e3]
      rw [if_neg (by decide), if_pos True.intro]
    · rename_i hdash
      split at h
      · rename_i hid
        obtain ⟨b, hb, hl⟩ := tIdent_local _ _ _ _ h
        have hne : b ≠ [] := by
          intro e
          have h0 := tIdent_lands (num ++ r1.1.filter (· != '_')) (c := r1.2)
          rw [h] at h0
          have hlt : (r1.2.span rcol (fun x => isTIdent x || x == '.')).2.txt.length < r1.2.txt.length :=
            span_len_lt rcol (by simp [hid]) (by decide)
          rw [e] at hb
          simp only [List.nil_append] at hb
          simp only [Lands] at h0
          rw [hb] at hlt; omega
        refine ⟨r1.1 ++ b, by rw [d1, hb]; simp, ?_⟩
        intro s q c' g1 g2
        obtain ⟨e1, e2⟩ := l1 (c') (b ++ s) q (by rw [hb, g1]; simp) (by rw [g2]; simp)
        obtain ⟨c2, e3, e4⟩ := hl s q (c'.span rcol isDigU).2 g1 e2
        refine ⟨c2, ?_, e4⟩
        have hch := ch_front hne hb e2
        simp only [tNumRest, hch, if_neg hdot, if_neg hdash, if_pos hid, e1, e3]
      · rename_i hid
        cases hx : parseI64Str (num ++ r1.1.filter (· != '_')) with
        | none => rw [hx] at h; cases h
        | some x =>
          rw [hx] at h
          simp only [Out.ok.injEq] at h
          obtain ⟨h1, h2⟩ := h
          subst h2
          refine ⟨r1.1, d1, ?_⟩
          intro s q c' g1 g2
          obtain ⟨e1, e2⟩ := l1 (c') _ _ g1 g2
          refine ⟨(c'.span rcol isDigU).2, ?_, e2⟩
          rcases ch_prefix g1 e2 with hch | hch
          · simp only [tNumRest, hch, if_neg hdot, if_neg hdash, if_neg hid, e1, hx, h1]
          · simp only [tNumRest, hch, e1]
            rw [if_neg (by decide), if_neg (by decide), if_neg (by decide), hx]
            simp only [h1]

/-- The words after a sign. -/
theorem numWord_local {w : List Char} (hw : '\x00' ∉ w) (neg : Bool) {num : List Char} {t : TTok} {c : Cur}
    (hn : parseI64Str (num ++ w) = none) (hd : ∀ x ∈ w, isDig x = false) {a : TTok} {c1 : Cur}
    (h : (if (tWord w c).2.1 && isTTerm (tWord w c).2.2.ch then .ok t (tWord w c).2.2
      else tNumRest o neg (num ++ (tWord w c).1) (tWord w c).2.2) = .ok a c1) :
    ∃ b, c.txt = b ++ c1.txt ∧ ∀ s q c', c1.txt = s ++ q → c'.txt = b ++ s →
      ∃ c1', (if (tWord w c').2.1 && isTTerm (tWord w c').2.2.ch then .ok t (tWord w c').2.2
      else tNumRest o neg (num ++ (tWord w c').1) (tWord w c').2.2) = .ok a c1' ∧ c1'.txt = s := by
  obtain ⟨d1, l1⟩ := tWord_local w hw c
  have hfull : (tWord w c).2.1 = true → (tWord w c).1 = w := by
    clear h hn d1 l1 hd hw
    induction w generalizing c with
    | nil => intro _; rfl
    | cons x w ih =>
      simp only [tWord]
      split
      · intro h; simp only [ih h]
      · intro h; cases h
  generalize hr : tWord w c = r at *
  split at h
  · rename_i hc
    simp only [Out.ok.injEq] at h
    obtain ⟨rfl, rfl⟩ := h
    refine ⟨r.1, d1, ?_⟩
    intro s q c' g1 g2
    obtain ⟨e1, e2, e3⟩ := l1 s q c' g1 g2
    refine ⟨(tWord w c').2.2, ?_, e3⟩
    simp only [Bool.and_eq_true] at hc
    rw [if_pos]
    rw [e2, hc.1]
    rcases ch_prefix g1 e3 with e | e
    · rw [e, hc.2]; rfl
    · rw [e]; rfl
  · rename_i hc
    obtain ⟨b, hb, hl⟩ := tNumRest_local _ _ _ _ _ h
    refine ⟨r.1 ++ b, by rw [d1, hb]; simp, ?_⟩
    intro s q c' g1 g2
    obtain ⟨e1, e2, e3⟩ := l1 (b ++ s) q c' (by rw [hb, g1]; simp) (by rw [g2]; simp)
    obtain ⟨c2, e4, e5⟩ := hl s q (tWord w c').2.2 g1 e3
    refine ⟨c2, ?_, e5⟩
    have : ¬ ((tWord w c').2.1 && isTTerm (tWord w c').2.2.ch) = true := by
      rw [e2]
      by_cases hne : b = []
      · -- nothing read after the word: it is not a number
        intro hcc
        simp only [Bool.and_eq_true] at hcc
        have hw1 := hfull hcc.1
        subst hne
        simp only [List.nil_append] at hb
        simp only [hcc.1, Bool.true_and] at hc
        have hs := (span_dec isDigU r.2.2).1
        simp only [tNumRest] at h
        generalize hr1 : r.2.2.span rcol isDigU = r1 at *
        have hlen : c1.txt.length = r.2.2.txt.length := by rw [hb]
        have h0 := tNumRest_lands (o := o) neg (num ++ r.1) (c := r.2.2)
        rw [hr1] at h0
        simp only [tNumRest, hr1] at h0
        rw [h] at h0
        simp only [Lands] at h0
        have hnil : r1.1 = [] := by
          have := congrArg List.length hs
          simp only [List.length_append] at this
          exact List.eq_nil_of_length_eq_zero (by omega)
        have hr2 : r1.2.txt = r.2.2.txt := by rw [hs, hnil]; rfl
        split at h
        · rename_i hdot
          have hx := tnext_lt (c := r1.2) (by rw [hdot]; decide)
          have hy := span_len rcol isDigU r1.2.tnext
          cases hz : o.parse64 (num ++ r.1 ++ r1.1.filter (· != '_') ++ '.' :: (r1.2.tnext.span rcol isDigU).1.filter (· != '_')) with
          | none => rw [hz] at h; cases h
          | some x =>
            rw [hz] at h
            simp only [Out.ok.injEq] at h
            rw [← h.2, ← hr2] at hlen
            omega
        · split at h
          · rename_i hdash
            have hx := tnext_lt (c := r1.2) (by rw [hdash]; decide)
            have hy := span_len rcol isTDate r1.2.tnext
            simp only [Out.ok.injEq] at h
            rw [← h.2, ← hr2] at hlen
            omega
          · split at h
            · rename_i hid
              have hx := tIdent_lands (num ++ r.1 ++ r1.1.filter (· != '_')) (c := r1.2)
              rw [h] at hx
              have hlt : (r1.2.span rcol (fun x => isTIdent x || x == '.')).2.txt.length < r1.2.txt.length :=
                span_len_lt rcol (by simp [hid]) (by decide)
              simp only [Lands] at hx
              rw [hr2] at hlt
              omega
            · rw [hnil, hw1] at h
              simp only [List.filter_nil, List.append_nil, hn] at h
              cases h
      · rw [ch_front hne hb e3]; exact hc
    rw [if_neg this, e1]
    exact e4

theorem numTail_local {num : List Char} (hnum : num = [] ∨ num = ['-']) (neg : Bool) {d : Cur} {a : TTok} {c1 : Cur}
    (h : (if d.ch = 'n' then
        if (tWord ['n', 'a', 'n'] d).2.1 && isTTerm (tWord ['n', 'a', 'n'] d).2.2.ch then .ok (.nan neg) (tWord ['n', 'a', 'n'] d).2.2
        else tNumRest o neg (num ++ (tWord ['n', 'a', 'n'] d).1) (tWord ['n', 'a', 'n'] d).2.2
      else if d.ch = 'i' then
        if (tWord ['i', 'n', 'f'] d).2.1 && isTTerm (tWord ['i', 'n', 'f'] d).2.2.ch then .ok (.inf neg) (tWord ['i', 'n', 'f'] d).2.2
        else tNumRest o neg (num ++ (tWord ['i', 'n', 'f'] d).1) (tWord ['i', 'n', 'f'] d).2.2
      else tNumRest o neg num d) = .ok a c1) :
    ∃ b, d.txt = b ++ c1.txt ∧ ∀ s q d', c1.txt = s ++ q → d'.txt = b ++ s →
      ∃ c1', (if d'.ch = 'n' then
        if (tWord ['n', 'a', 'n'] d').2.1 && isTTerm (tWord ['n', 'a', 'n'] d').2.2.ch then .ok (.nan neg) (tWord ['n', 'a', 'n'] d').2.2
        else tNumRest o neg (num ++ (tWord ['n', 'a', 'n'] d').1) (tWord ['n', 'a', 'n'] d').2.2
      else if d'.ch = 'i' then
        if (tWord ['i', 'n', 'f'] d').2.1 && isTTerm (tWord ['i', 'n', 'f'] d').2.2.ch then .ok (.inf neg) (tWord ['i', 'n', 'f'] d').2.2
        else tNumRest o neg (num ++ (tWord ['i', 'n', 'f'] d').1) (tWord ['i', 'n', 'f'] d').2.2
      else tNumRest o neg num d') = .ok a c1' ∧ c1'.txt = s := by
  have wlt : ∀ (x : Char) (w : List Char) (t : TTok), x ≠ '\x00' → d.ch = x →
      (if (tWord (x :: w) d).2.1 && isTTerm (tWord (x :: w) d).2.2.ch then .ok t (tWord (x :: w) d).2.2
        else tNumRest o neg (num ++ (tWord (x :: w) d).1) (tWord (x :: w) d).2.2) = .ok a c1 →
      c1.txt.length < d.txt.length := by
    intro x w t hx hd h
    have h1 := tWord_lt (w := w) hd hx
    split at h
    · cases h; exact h1
    · have := tNumRest_le (o := o) neg (num ++ (tWord (x :: w) d).1) (c := (tWord (x :: w) d).2.2)
      rw [h] at this
      simp only [Lands] at this
      omega
  split at h
  · rename_i hn
    have hlt := wlt _ _ _ (by decide) hn h
    obtain ⟨b, hb, hl⟩ := numWord_local (by decide) neg (by rcases hnum with rfl | rfl <;> decide) (by decide) h
    refine ⟨b, hb, ?_⟩
    intro s q d' g1 g2
    have hne : b ≠ [] := by rintro rfl; rw [hb] at hlt; simp at hlt
    rw [ch_front hne hb g2, if_pos hn]
    exact hl s q d' g1 g2
  · rename_i hn
    split at h
    · rename_i hi
      have hlt := wlt _ _ _ (by decide) hi h
      obtain ⟨b, hb, hl⟩ := numWord_local (by decide) neg (by rcases hnum with rfl | rfl <;> decide) (by decide) h
      refine ⟨b, hb, ?_⟩
      intro s q d' g1 g2
      have hne : b ≠ [] := by rintro rfl; rw [hb] at hlt; simp at hlt
      rw [ch_front hne hb g2, if_neg hn, if_pos hi]
      exact hl s q d' g1 g2
    · rename_i hi
      obtain ⟨b, hb, hl⟩ := tNumRest_local neg num d _ _ h
      refine ⟨b, hb, ?_⟩
      intro s q d' g1 g2
      have : d'.ch ≠ 'n' ∧ d'.ch ≠ 'i' := by
        rcases ch_prefix (c := d) (c' := d') (s := b ++ s) (q := q) (by rw [hb, g1]; simp) g2 with e | e
        · rw [e]; exact ⟨hn, hi⟩
        · rw [e]; decide
      rw [if_neg this.1, if_neg this.2]
      exact hl s q d' g1 g2

theorem tNum_local (c : Cur) (hc : c.ch = '+' ∨ c.ch = '-' ∨ isDig c.ch = true) : TLocal (tNum o) c := by
  intro a c1 h
  have hlen := tNum_lands (o := o) hc
  rw [h] at hlen
  simp only [Lands] at hlen
  have hz : c.ch ≠ '\x00' := by
    rcases hc with h | h | h
    · rw [h]; decide
    · rw [h]; decide
    · intro e; rw [e] at h; revert h; decide
  have hd := tnext_dec hz
  simp only [tNum] at h
  split at h
  · rename_i hp
    obtain ⟨b, hb, hl⟩ := numTail_local (.inl rfl) _ h
    refine ⟨c.ch :: b, by rw [hd, hb]; simp [Cur.ch], ?_⟩
    intro s q c' g1 g2
    have hch : c'.ch = c.ch := Cur.ch_cons (t := b ++ s) (by simpa using g2)
    obtain ⟨c2, e1, e2⟩ := hl s q c'.tnext g1 (tnext_cons (by simpa using g2))
    refine ⟨c2, ?_, e2⟩
    simp only [tNum, hch, if_pos hp]
    exact e1
  · rename_i hp
    split at h
    · rename_i hm
      obtain ⟨b, hb, hl⟩ := numTail_local (.inr rfl) _ h
      refine ⟨c.ch :: b, by rw [hd, hb]; simp [Cur.ch], ?_⟩
      intro s q c' g1 g2
      have hch : c'.ch = c.ch := Cur.ch_cons (t := b ++ s) (by simpa using g2)
      obtain ⟨c2, e1, e2⟩ := hl s q c'.tnext g1 (tnext_cons (by simpa using g2))
      refine ⟨c2, ?_, e2⟩
      simp only [tNum, hch, if_neg hp, if_pos hm]
      exact e1
    · rename_i hm
      obtain ⟨b, hb, hl⟩ := numTail_local (.inl rfl) _ h
      refine ⟨b, hb, ?_⟩
      intro s q c' g1 g2
      have hne : b ≠ [] := by
        rintro rfl
        have := Cur.pos_of_ch hz
        rw [hb] at hlen
        rw [hb] at this
        simp only [List.nil_append] at hlen this
        omega
      obtain ⟨c2, e1, e2⟩ := hl s q c' g1 g2
      refine ⟨c2, ?_, e2⟩
      simp only [tNum, ch_front hne hb g2, if_neg hp, if_neg hm]
      rw [ch_front hne hb g2] at e1
      exact e1

theorem tTok_local (c : Cur) : TLocal (tTok o) c := by
  intro a c1 h
  rcases tTok_lands (o := o) c with ⟨hz, e⟩ | ⟨hz, hl, hne⟩ | ⟨e, he⟩
  · rw [e] at h
    cases h
    refine ⟨[], rfl, ?_⟩
    intro s q c' g1 g2
    refine ⟨c', ?_, g2⟩
    have : c'.ch = '\x00' := by
      rcases ch_prefix g1 (by simpa using g2) with e | e
      · rw [e]; exact hz
      · exact e
    simp [tTok, this]
  · rw [h] at hl
    simp only [Lands] at hl
    have hpos := Cur.pos_of_ch hz
    -- it is enough to know that the branch taken is local
    have key : ∀ x : TM TTok, TLocal x c → x c = .ok a c1 → (∀ c' : Cur, c'.ch = c.ch → tTok o c' = x c') →
        ∃ b, c.txt = b ++ c1.txt ∧ ∀ s q c', c1.txt = s ++ q → c'.txt = b ++ s →
          ∃ c1', tTok o c' = .ok a c1' ∧ c1'.txt = s := by
      intro x hx e he
      obtain ⟨b, hb, hl'⟩ := hx _ _ e
      refine ⟨b, hb, ?_⟩
      intro s q c' g1 g2
      have hne : b ≠ [] := by
        rintro rfl
        simp only [List.nil_append] at hb
        rw [hb] at hl hpos; omega
      rw [he c' (ch_front hne hb g2)]
      exact hl' s q c' g1 g2
    have one : ∀ (t : TTok), TLocal (fun c : Cur => Out.ok t c.tnext) c := by
      intro t a c1 e
      cases e
      refine ⟨[c.ch], by rw [tnext_dec hz]; simp [Cur.ch], ?_⟩
      intro s q c' _ g2
      exact ⟨c'.tnext, rfl, tnext_cons (by simpa using g2)⟩
    simp only [tTok, if_neg hz] at h
    split at h
    · rename_i h1; exact key _ (one _) h (fun c' e => by simp only [tTok, e, if_neg hz, if_pos h1])
    rename_i h1
    split at h
    · rename_i h2; exact key _ (one _) h (fun c' e => by simp only [tTok, e, if_neg hz, if_neg h1, if_pos h2])
    rename_i h2
    split at h
    · rename_i h3; exact key _ (one _) h (fun c' e => by simp only [tTok, e, if_neg hz, if_neg h1, if_neg h2, if_pos h3])
    rename_i h3
    split at h
    · rename_i h4; exact key _ (one _) h (fun c' e => by simp only [tTok, e, if_neg hz, if_neg h1, if_neg h2, if_neg h3, if_pos h4])
    rename_i h4
    split at h
    · rename_i h5
      exact key _ (tNum_local c h5) h (fun c' e => by simp only [tTok, e, if_neg hz, if_neg h1, if_neg h2, if_neg h3, if_neg h4, if_pos h5])
    rename_i h5
    split at h
    · rename_i h6
      exact key _ (tStr_local h6) h (fun c' e => by simp only [tTok, e, if_neg hz, if_neg h1, if_neg h2, if_neg h3, if_neg h4, if_neg h5, if_pos h6])
    rename_i h6
    split at h
    · rename_i h7
      exact key _ (tIdent_local _ c) h (fun c' e => by simp only [tTok, e, if_neg hz, if_neg h1, if_neg h2, if_neg h3, if_neg h4, if_neg h5, if_neg h6, if_pos h7])
    · cases h
  · rw [he] at h; cases h

theorem tNext_local (c : Cur) : TLocal (tNext o) c := by
  intro a c1 h
  simp only [tNext] at h
  have d1 := (span_dec isWs c).1
  have l1 := span_local (isWs) (c)
  cases hx : tComments (c.txt.length + 1) (c.span rcol isWs).2 with
  | none => rw [hx] at h; cases h
  | some c2 =>
    rw [hx] at h
    obtain ⟨b1, hb1, hl1⟩ := tComments_local hx
    obtain ⟨b2, hb2, hl2⟩ := tTok_local _ _ _ h
    generalize c.span rcol isWs = r at *
    refine ⟨r.1 ++ (b1 ++ b2), by rw [d1, hb1, hb2]; simp, ?_⟩
    intro s q c' g1 g2
    obtain ⟨e1, e2⟩ := l1 (c') (b1 ++ b2 ++ s) q (by rw [hb1, hb2, g1]; simp) (by rw [g2]; simp)
    obtain ⟨c3, e3, e4⟩ := hl1 (b2 ++ s) q (c'.span rcol isWs).2 (c'.txt.length + 1) (by rw [hb2, g1]; simp)
      (by rw [e2]; simp) (by rw [g2]; simp only [List.length_append]; omega)
    obtain ⟨c4, e5, e6⟩ := hl2 s q c3 g1 e4
    exact ⟨c4, by simp only [tNext, e3, e5], e6⟩

theorem TLocal.pure {α : Type} {a : α} (c : Cur) : TLocal (Pure.pure a : TM α) c := by
  intro a' c1 h
  cases h
  exact ⟨[], rfl, fun s q c' _ g => ⟨c', rfl, by simpa using g⟩⟩

theorem TLocal.bind {α β : Type} {x : TM α} {f : α → TM β} (hx : ∀ c, TLocal x c) (hf : ∀ a c, TLocal (f a) c) (c : Cur) :
    TLocal (x >>= f) c := by
  intro a c2 h
  have h : M.bind x f c = .ok a c2 := h
  unfold M.bind at h
  cases hx1 : x c with
  | err _ _ => rw [hx1] at h; cases h
  | panic => rw [hx1] at h; cases h
  | oof => rw [hx1] at h; cases h
  | ok v c1 =>
    rw [hx1] at h
    obtain ⟨b1, hb1, hl1⟩ := hx c v c1 hx1
    obtain ⟨b2, hb2, hl2⟩ := hf v c1 a c2 h
    refine ⟨b1 ++ b2, by rw [hb1, hb2]; simp, ?_⟩
    intro s q c' g1 g2
    obtain ⟨c3, e3, e4⟩ := hl1 (b2 ++ s) q c' (by rw [hb2, g1]; simp) (by rw [g2]; simp)
    obtain ⟨c4, e5, e6⟩ := hl2 s q c3 g1 e4
    refine ⟨c4, ?_, e6⟩
    show M.bind x f c' = _
    unfold M.bind
    rw [e3]
    exact e5

theorem TLocal.errToken {α : Type} (t : TTok) (c : Cur) : TLocal (tErrToken t : TM α) c := fun _ _ h => by cases h

theorem TLocal.oof {α : Type} (c : Cur) : TLocal (M.oof : TM α) c := fun _ _ h => by cases h

theorem TLocal.orPanic {α : Type} (x : Option α) (c : Cur) : TLocal (orPanic x) c := by
  cases x with
  | none => intro _ _ h; cases h
  | some a => exact TLocal.pure c

theorem TLocal.ite {α : Type} {p : Prop} [Decidable p] {x y : TM α} {c : Cur} (hx : TLocal x c) (hy : TLocal y c) :
    TLocal (if p then x else y) c := by
  split
  · exact hx
  · exact hy

theorem tVal_local : ∀ n, (∀ t c, TLocal (tVal o n t) c) ∧ ∀ vs c, TLocal (tVals o n vs) c := by
  intro n
  induction n with
  | zero => exact ⟨fun t c => by simpa [tVal] using TLocal.oof c, fun vs c => by simpa [tVals] using TLocal.oof c⟩
  | succ n ih =>
    refine ⟨fun t c => ?_, fun vs c => ?_⟩
    · cases t <;> simp only [tVal] <;>
        first | exact TLocal.pure c | exact TLocal.errToken _ c | exact TLocal.bind (ih.2 []) (fun _ => TLocal.pure) c
    · simp only [tVals]
      exact TLocal.bind tNext_local (fun t c => TLocal.ite (TLocal.pure c)
        (TLocal.ite (TLocal.bind (ih.1 t) (fun v => ih.2 _) c) (ih.2 _ c))) c

theorem tExpect_local (t : TTok) (c : Cur) : TLocal (tExpect o t) c :=
  TLocal.bind tNext_local (fun _ c => TLocal.ite (TLocal.errToken _ c) (TLocal.pure c)) c

theorem tHeader_local (u : TOut) (c : Cur) : TLocal (tHeader o u) c := by
  refine TLocal.bind tNext_local (fun t => ?_) c
  cases t <;> simp only
  case str => exact TLocal.bind (tExpect_local _) fun _ => TLocal.pure
  case ident => exact TLocal.bind (tExpect_local _) fun _ => TLocal.pure
  case blockOpen =>
    exact TLocal.bind tNext_local fun t c => TLocal.ite (TLocal.bind (tExpect_local _) (fun _ => TLocal.bind (tExpect_local _) fun _ =>
      TLocal.bind (TLocal.orPanic _) fun _ => TLocal.pure) c) (TLocal.errToken _ c)
  all_goals exact TLocal.errToken _

theorem tLine_local (n : Nat) (u : TOut) (c : Cur) : TLocal (tLine o n u) c :=
  TLocal.bind tNext_local (fun t c => TLocal.ite (TLocal.pure c) (TLocal.ite (TLocal.bind (tHeader_local u) (fun _ => TLocal.pure) c)
    (TLocal.ite (TLocal.bind (TLocal.bind (tExpect_local _) fun _ => TLocal.bind tNext_local fun t =>
      TLocal.bind ((tVal_local n).1 t) fun v => TLocal.orPanic _) (fun _ => TLocal.pure) c) (TLocal.errToken _ c)))) c

end NS
