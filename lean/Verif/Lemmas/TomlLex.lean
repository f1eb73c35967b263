import Verif.Spec.Toml
import Verif.Lemmas.Lex
import Verif.Lemmas.LexDoc
/-! The TOML lexer reads the spellings of `TSpell`. -/
namespace NS

theorem bare_iff (c : Char) : Bare c ↔ isTIdent c = true := by
  simp [Bare, bareRanges, isTIdent, or_assoc]
  omega

theorem digit_iff (c : Char) : Digit c ↔ isDig c = true := by
  simp [Digit, isDig]

theorem digU_iff (c : Char) : (Digit c ∨ c = '_') ↔ isDigU c = true := by
  simp [isDigU, digit_iff]

theorem tdate_iff (c : Char) : (Digit c ∨ c = ':' ∨ c = '-' ∨ c = 'T') ↔ isTDate c = true := by
  simp [isTDate, digit_iff, or_assoc]

theorem blank_iff (c : Char) : Blank c ↔ isWs c = true := by
  simp [isWs, Blank, or_assoc]
  grind

theorem terminated_ch {r : List Char} (h : Terminated r) {c : Cur} (hc : c.txt = r) : isTTerm c.ch = true := by
  cases r with
  | nil => rw [Cur.ch_nil hc]; rfl
  | cons x r =>
    rw [Cur.ch_cons hc]
    rcases h x rfl with e | e | e | e | e | e <;> subst e <;> rfl

theorem notBefore_stop {p : Char → Prop} {q : Char → Bool} {r : List Char} (h : NotBefore p r)
    (hpq : ∀ c, q c = true → p c) : StopAt q r := by
  intro x t e
  cases hq : q x with
  | false => rfl
  | true => exact absurd (hpq x hq) (h x (by rw [e]; rfl))

theorem terminated_stop {r : List Char} (h : Terminated r) : StopAt (fun x => isTIdent x || x == '.') r := by
  intro x t e
  rcases h x (by rw [e]; rfl) with e | e | e | e | e | e <;> subst e <;> decide

/-! ## Layout -/

theorem tSkip_layout {w : List Char} (hw : TLayout w) {rest : List Char}
    (hrest : StopAt (fun x => isWs x || x == '#') rest) :
    ∀ {n : Nat} {c : Cur}, c.txt = w ++ rest → w.length < n →
      ∃ c', tComments n (c.span rcol isWs).2 = some c' ∧ c'.txt = rest := by
  induction hw with
  | nil =>
    intro n c hc hn
    obtain ⟨n, rfl⟩ : ∃ m, n = m + 1 := ⟨n - 1, by omega⟩
    have hs : c.span rcol isWs = ([], c) := Cur.span_stop (by
      intro x t e
      have := hrest x t (by rw [← e]; simpa using hc.symm)
      simp only [Bool.or_eq_false_iff] at this
      exact this.1)
    rw [hs]
    refine ⟨c, ?_, by simpa using hc⟩
    have : c.ch ≠ '#' := hrest.ch_ne (by simpa using hc) (by decide) (by decide)
    simp [tComments, this]
  | @space x w hx _ ih =>
    intro n c hc hn
    have hb : isWs x = true := (blank_iff x).1 hx
    rw [Cur.span_step (x := x) (t := w ++ rest) (by simpa using hc) hb]
    exact ih (by rw [Cur.next_txt, hc]; rfl) (by simp at hn; omega)
  | @comment b w hb hz _ ih =>
    intro n c hc hn
    obtain ⟨n, rfl⟩ : ∃ m, n = m + 1 := ⟨n - 1, by omega⟩
    have hch : c.ch = '#' := Cur.ch_cons (t := b ++ '\n' :: (w ++ rest)) (by simpa using hc)
    have hs : c.span rcol isWs = ([], c) := Cur.span_stop (by
      intro x t e
      rw [hc] at e
      injection e with e _
      rw [← e]; rfl)
    rw [hs]
    simp only [tComments, hch, if_true]
    have key := span_run (k := rcol) (p := fun x => x != '\n' && x != '\x00') (c := c)
      (a := '#' :: b) (b := '\n' :: (w ++ rest)) (by rw [hc]; simp) (by
        intro y hy
        rcases List.mem_cons.1 hy with e | e
        · subst e; decide
        · have h1 : y ≠ '\n' := fun e' => hb (e' ▸ e)
          have h2 : y ≠ '\x00' := fun e' => hz (e' ▸ e)
          simp [h1, h2]) (StopAt.cons (by decide))
    rw [Cur.span_step (x := '\n') (t := w ++ rest) key.2 (by decide)]
    exact ih (by rw [Cur.next_txt, key.2]; rfl) (by simp at hn; omega)

/-- The end of the text behind layout. -/
theorem tSkip_end {w : List Char} (hw : TLayoutEnd w) {c : Cur} (hc : c.txt = w) :
    ∃ c', tComments (c.txt.length + 1) (c.span rcol isWs).2 = some c' ∧ c'.txt = [] := by
  rcases hw with h | ⟨a, b, ha, hb, hz, e⟩
  · exact tSkip_layout h (rest := []) StopAt.nil (by simpa using hc) (by rw [hc]; omega)
  · -- the same as with a newline at the end
    subst e
    have key : ∀ (a : List Char), TLayout a → ∀ (n : Nat) (c : Cur), c.txt = a ++ '#' :: b → a.length + 1 < n →
        ∃ c', tComments n (c.span rcol isWs).2 = some c' ∧ c'.txt = [] := by
      intro a ha
      induction ha with
      | nil =>
        intro n c hc hn
        obtain ⟨n, rfl⟩ : ∃ m, n = m + 2 := ⟨n - 2, by simp at hn; omega⟩
        have hch : c.ch = '#' := Cur.ch_cons (t := b) (by simpa using hc)
        have hs : c.span rcol isWs = ([], c) := Cur.span_stop (by
          intro x t e
          rw [hc] at e
          injection e with e _
          rw [← e]; rfl)
        rw [hs]
        simp only [tComments, hch, if_true]
        have key := span_run (k := rcol) (p := fun x => x != '\n' && x != '\x00') (c := c)
          (a := '#' :: b) (b := []) (by rw [hc]; simp) (by
            intro y hy
            rcases List.mem_cons.1 hy with e | e
            · subst e; decide
            · have h1 : y ≠ '\n' := fun e' => hb (e' ▸ e)
              have h2 : y ≠ '\x00' := fun e' => hz (e' ▸ e)
              simp [h1, h2]) StopAt.nil
        generalize (c.span rcol fun x => x != '\n' && x != '\x00').2 = d at key ⊢
        rw [Cur.span_stop (by intro x t e; rw [key.2] at e; cases e)]
        refine ⟨d, ?_, key.2⟩
        have : d.ch ≠ '#' := by rw [Cur.ch_nil key.2]; decide
        simp [this]
      | @space x w hx _ ih =>
        intro n c hc hn
        rw [Cur.span_step (x := x) (t := w ++ '#' :: b) (by simpa using hc) ((blank_iff x).1 hx)]
        exact ih _ _ (by rw [Cur.next_txt, hc]; rfl) (by simp at hn; omega)
      | @comment b' w hb' hz' _ ih =>
        intro n c hc hn
        obtain ⟨n, rfl⟩ : ∃ m, n = m + 1 := ⟨n - 1, by omega⟩
        have hch : c.ch = '#' := Cur.ch_cons (t := b' ++ '\n' :: (w ++ '#' :: b)) (by simpa using hc)
        have hs : c.span rcol isWs = ([], c) := Cur.span_stop (by
          intro x t e
          rw [hc] at e
          injection e with e _
          rw [← e]; rfl)
        rw [hs]
        simp only [tComments, hch, if_true]
        have key := span_run (k := rcol) (p := fun x => x != '\n' && x != '\x00') (c := c)
          (a := '#' :: b') (b := '\n' :: (w ++ '#' :: b)) (by rw [hc]; simp) (by
            intro y hy
            rcases List.mem_cons.1 hy with e | e
            · subst e; decide
            · have h1 : y ≠ '\n' := fun e' => hb' (e' ▸ e)
              have h2 : y ≠ '\x00' := fun e' => hz' (e' ▸ e)
              simp [h1, h2]) (StopAt.cons (by decide))
        rw [Cur.span_step (x := '\n') (t := w ++ '#' :: b) key.2 (by decide)]
        exact ih _ _ (by rw [Cur.next_txt, key.2]; rfl) (by simp at hn; omega)
    exact key a ha _ c hc (by rw [hc]; simp)

/-! ## Strings -/

/-- One round past a plain character or an escape. -/
theorem tStrBody_body {long : Bool} {b s : List Char} (h : TBody b s) :
    ∀ {n : Nat} {c : Cur} {val rest : List Char}, c.txt = b ++ rest → b.length ≤ n →
      ∃ c' m, tStrBody long n val c = tStrBody long m (val ++ s) c' ∧ c'.txt = rest ∧ n ≤ m + b.length := by
  induction h with
  | nil => intro n c val rest hc hn; exact ⟨c, n, by simp, by simpa using hc, by simp⟩
  | @plain x b s h1 h2 h3 _ ih =>
    intro n c val rest hc hn
    obtain ⟨n, rfl⟩ : ∃ m, n = m + 1 := ⟨n - 1, by simp at hn; omega⟩
    have hch : c.ch = x := Cur.ch_cons (t := b ++ rest) (by simpa using hc)
    obtain ⟨c', m, e, ht, hm⟩ := ih (n := n) (c := c.tnext) (val := val ++ [x]) (rest := rest)
      (by rw [Cur.tnext, Cur.next_txt, hc]; rfl) (by simp at hn; omega)
    refine ⟨c', m, ?_, ht, by simp; omega⟩
    rw [show val ++ x :: s = val ++ [x] ++ s by simp, ← e]
    simp only [tStrBody]
    rw [hch, if_neg h1, if_neg h2, if_neg h3]
  | @esc x b s _ ih =>
    intro n c val rest hc hn
    obtain ⟨n, rfl⟩ : ∃ m, n = m + 1 := ⟨n - 1, by simp at hn; omega⟩
    have hch : c.ch = '\\' := Cur.ch_cons (t := x :: (b ++ rest)) (by simpa using hc)
    have h1 : c.tnext.txt = x :: (b ++ rest) := by rw [Cur.tnext, Cur.next_txt, hc]; rfl
    obtain ⟨c', m, e, ht, hm⟩ := ih (n := n) (c := c.tnext.tnext) (val := val ++ [x]) (rest := rest)
      (by rw [Cur.tnext, Cur.next_txt, h1]; rfl) (by simp at hn; omega)
    refine ⟨c', m, ?_, ht, by simp; omega⟩
    rw [show val ++ x :: s = val ++ [x] ++ s by simp, ← e]
    simp only [tStrBody]
    rw [hch, if_neg (by decide), if_pos rfl, Cur.ch_cons h1]

theorem TBody.head {b s : List Char} (h : TBody b s) : b = [] ∨ ∃ x r, b = x :: r ∧ x ≠ '"' := by
  cases h with
  | nil => exact .inl rfl
  | plain h1 => exact .inr ⟨_, _, rfl, h1⟩
  | esc => exact .inr ⟨_, _, rfl, by decide⟩

theorem tStr_short {b s r : List Char} (hb : b ≠ []) (h : TBody b s) {c : Cur}
    (hc : c.txt = '"' :: (b ++ ['"']) ++ r) : ∃ c', tStr c = .ok (.str s) c' ∧ c'.txt = r := by
  have h1 : c.tnext.txt = b ++ '"' :: r := by rw [Cur.tnext, Cur.next_txt, hc]; simp
  have hq : tQuotes 2 c.tnext = (0, c.tnext) := by
    rcases h.head with e | ⟨x, t, e, hx⟩
    · exact absurd e hb
    · rw [e] at h1
      have : c.tnext.ch = x := Cur.ch_cons h1
      simp [tQuotes, this, hx]
  obtain ⟨c', m, e, ht, hm⟩ := tStrBody_body (long := false) h (n := c.tnext.txt.length + 2) (val := []) h1
    (by rw [h1]; simp; omega)
  have hm' : 0 < m := by rw [h1] at hm; simp at hm; omega
  obtain ⟨m, rfl⟩ : ∃ k, m = k + 1 := ⟨m - 1, by omega⟩
  have hq' : c'.ch = '"' := Cur.ch_cons ht
  refine ⟨c'.tnext, ?_, by rw [Cur.tnext, Cur.next_txt, ht]; rfl⟩
  simp only [tStr, hq]
  rw [show ((0 : Nat) == 2) = false from rfl, e]
  simp [tStrBody, hq']

theorem tStr_long {b s r : List Char} (h : TBody b s) {c : Cur}
    (hr : r.head? ≠ some '"')
    (hc : c.txt = '"' :: '"' :: '"' :: (b ++ '"' :: '"' :: '"' :: r)) :
    ∃ c', tStr c = .ok (.str s) c' ∧ c'.txt = r.tail := by
  have h1 : c.tnext.txt = '"' :: '"' :: (b ++ '"' :: '"' :: '"' :: r) := by rw [Cur.tnext, Cur.next_txt, hc]; rfl
  have h2 : c.tnext.tnext.txt = '"' :: (b ++ '"' :: '"' :: '"' :: r) := by
    rw [show c.tnext.tnext.txt = c.tnext.txt.tail from Cur.next_txt .., h1]; rfl
  have h3 : c.tnext.tnext.tnext.txt = b ++ '"' :: '"' :: '"' :: r := by
    rw [show c.tnext.tnext.tnext.txt = c.tnext.tnext.txt.tail from Cur.next_txt .., h2]; rfl
  have hq : tQuotes 2 c.tnext = (2, c.tnext.tnext.tnext) := by
    simp [tQuotes, Cur.ch_cons h1, Cur.ch_cons h2]
  generalize c.tnext.tnext.tnext = d at h3 hq
  obtain ⟨c', m, e, ht, hm⟩ := tStrBody_body (long := true) h (n := d.txt.length + 2) (val := []) h3
    (by rw [h3]; simp; omega)
  have hm' : 0 < m := by rw [h3] at hm; simp at hm; omega
  obtain ⟨m, rfl⟩ : ∃ k, m = k + 1 := ⟨m - 1, by omega⟩
  have hq' : c'.ch = '"' := Cur.ch_cons ht
  have key := span_run (k := rcol) (p := (· == '"')) (c := c') (a := ['"', '"', '"']) (b := r)
    (by rw [ht]; rfl) (by simp) (by
      intro x t e
      have : x ≠ '"' := fun e' => hr (by rw [e, e']; rfl)
      simp [this])
  refine ⟨(c'.span rcol (· == '"')).2.tnext, ?_, by rw [Cur.tnext, Cur.next_txt, key.2]⟩
  simp only [tStr, hq]
  rw [show ((2 : Nat) == 2) = true from rfl, e]
  simp only [tStrBody, hq', if_true, key.1]
  simp

/-! ## Words -/

theorem tIdent_run {start w r : List Char} (hw : ∀ x ∈ w, Bare x ∨ x = '.') (hr : Terminated r) {c : Cur}
    (hc : c.txt = w ++ r) : ∃ c', tIdent start c = .ok (if start ++ w = ['t', 'r', 'u', 'e'] then .bool true
      else if start ++ w = ['f', 'a', 'l', 's', 'e'] then .bool false
      else if start ++ w = ['i', 'n', 'f'] then .inf false
      else if start ++ w = ['n', 'a', 'n'] then .nan false
      else .ident (start ++ w)) c' ∧ c'.txt = r := by
  have key := span_run (k := rcol) (p := fun x => isTIdent x || x == '.') (c := c) hc (by
    intro x hx
    rcases hw x hx with h | h
    · simp [(bare_iff x).1 h]
    · simp [h]) (terminated_stop hr)
  refine ⟨(c.span rcol fun x => isTIdent x || x == '.').2, ?_, key.2⟩
  simp only [tIdent, key.1]
  rw [if_pos (terminated_ch hr key.2)]

theorem not_word {w : List Char} (h : w ∉ tomlWords.map Prod.fst) :
    (if w = ['t', 'r', 'u', 'e'] then TTok.bool true
      else if w = ['f', 'a', 'l', 's', 'e'] then .bool false
      else if w = ['i', 'n', 'f'] then .inf false
      else if w = ['n', 'a', 'n'] then .nan false
      else .ident w) = .ident w := by
  simp [tomlWords] at h
  rw [if_neg h.1, if_neg h.2.1, if_neg h.2.2.1, if_neg h.2.2.2]

/-- The first character of a word takes the branch of words. -/
theorem tTok_ident {o : TomlOps} {c : Cur} {x : Char} (hx : c.ch = x) (hb : Bare x) (hd : ¬ Digit x)
    (hm : x ≠ '-') : tTok o c = tIdent [] c := by
  have hb' := (bare_iff x).1 hb
  have hd' : isDig x = false := by
    cases h : isDig x with
    | false => rfl
    | true => exact absurd ((digit_iff x).2 h) hd
  have ne : ∀ y, isTIdent y = false → x ≠ y := by
    intro y hy e; rw [e, hy] at hb'; cases hb'
  simp only [tTok, hx]
  rw [if_neg (ne _ (by decide)), if_neg (ne _ (by decide)), if_neg (ne _ (by decide)), if_neg (ne _ (by decide)),
    if_neg (ne _ (by decide)), if_neg (by simp [ne '+' (by decide), hm, hd']), if_neg (ne _ (by decide)), if_pos hb']

theorem tTok_num {o : TomlOps} {c : Cur} (h : c.ch = '+' ∨ c.ch = '-' ∨ isDig c.ch = true) :
    tTok o c = tNum o c := by
  have ne : c.ch ≠ '\x00' ∧ c.ch ≠ ',' ∧ c.ch ≠ '[' ∧ c.ch ≠ ']' ∧ c.ch ≠ '=' := by
    rcases h with h | h | h
    · rw [h]; decide
    · rw [h]; decide
    · refine ⟨?_, ?_, ?_, ?_, ?_⟩ <;> intro e <;> rw [e] at h <;> revert h <;> decide
  simp only [tTok]
  rw [if_neg ne.1, if_neg ne.2.1, if_neg ne.2.2.1, if_neg ne.2.2.2.1, if_neg ne.2.2.2.2, if_pos h]

/-! ## Numbers -/

theorem Grouped.digits {s ds : List Char} (h : Grouped s ds) : ds ≠ [] ∧ ∀ c ∈ ds, isDig c = true := by
  obtain ⟨⟨d, r, e, hd⟩, h2, h3⟩ := h
  have hd' : d ≠ '_' := by
    intro e'; rw [e'] at hd; revert hd; unfold Digit; decide
  subst h3 e
  refine ⟨by simp [hd'], ?_⟩
  intro c hc
  obtain ⟨hc1, hc2⟩ := List.mem_filter.1 hc
  rcases h2 c hc1 with h | h
  · exact (digit_iff c).1 h
  · simp [h] at hc2

theorem Grouped.head {s ds : List Char} (h : Grouped s ds) : ∃ d r, s = d :: r ∧ isDig d = true := by
  obtain ⟨⟨d, r, e, hd⟩, _⟩ := h
  exact ⟨d, r, e, (digit_iff d).1 hd⟩

theorem Grouped.all {s ds : List Char} (h : Grouped s ds) : ∀ x ∈ s, isDigU x = true :=
  fun x hx => (digU_iff x).1 (h.2.1 x hx)

theorem Grouped.filter {s ds : List Char} (h : Grouped s ds) : s.filter (· != '_') = ds := by
  rw [h.2.2]
  congr 1
  funext x
  by_cases e : x = '_' <;> simp [e]

theorem parseI64_pos {ds : List Char} (h0 : ds ≠ []) (h1 : ∀ c ∈ ds, isDig c = true) (h2 : decimal ds < 2 ^ 63) :
    parseI64Str ds = some (decimal ds : Int) := by
  cases ds with
  | nil => exact absurd rfl h0
  | cons d ds =>
    have hd := h1 d (List.mem_cons_self ..)
    have e1 : d ≠ '-' := by intro e; rw [e] at hd; revert hd; decide
    have e2 : d ≠ '+' := by intro e; rw [e] at hd; revert hd; decide
    have : splitSign (d :: ds) = (false, d :: ds) := by simp [splitSign, e1, e2]
    simp only [parseI64Str, this]
    rw [if_neg (by simp), if_neg (by simpa using h1), digitsVal_decimal, if_pos h2]
    simp

theorem parseI64_neg {ds : List Char} (h0 : ds ≠ []) (h1 : ∀ c ∈ ds, isDig c = true) (h2 : decimal ds ≤ 2 ^ 63) :
    parseI64Str ('-' :: ds) = some (-(decimal ds : Int)) := by
  simp only [parseI64Str, show splitSign ('-' :: ds) = (true, ds) from rfl]
  rw [if_neg h0, if_neg (by simpa using h1), digitsVal_decimal, if_pos h2]
  simp

theorem parseI64_pos_big {ds : List Char} (h1 : ∀ c ∈ ds, isDig c = true) (h2 : 2 ^ 63 ≤ decimal ds) :
    parseI64Str ds = none := by
  cases ds with
  | nil => rfl
  | cons d ds =>
    have hd := h1 d (List.mem_cons_self ..)
    have e1 : d ≠ '-' := by intro e; rw [e] at hd; revert hd; decide
    have e2 : d ≠ '+' := by intro e; rw [e] at hd; revert hd; decide
    have : splitSign (d :: ds) = (false, d :: ds) := by simp [splitSign, e1, e2]
    simp only [parseI64Str, this]
    rw [if_neg (by simp), if_neg (by simpa using h1), digitsVal_decimal, if_neg Bool.false_ne_true, if_neg (by omega)]

theorem parseI64_neg_big {ds : List Char} (h1 : ∀ c ∈ ds, isDig c = true) (h2 : 2 ^ 63 < decimal ds) :
    parseI64Str ('-' :: ds) = none := by
  simp only [parseI64Str, show splitSign ('-' :: ds) = (true, ds) from rfl]
  by_cases h0 : ds = []
  · rw [if_pos h0]
  · rw [if_neg h0, if_neg (by simpa using h1), digitsVal_decimal, if_pos trivial, if_neg (by omega)]

/-- The start of a number: after the sign the reader is at the first digit. -/
theorem tNum_digits {o : TomlOps} {c : Cur} {sg : List Char} {d : Char} {t : List Char}
    (hsg : sg = [] ∨ sg = ['+'] ∨ sg = ['-']) (hd : isDig d = true) (hc : c.txt = sg ++ d :: t) :
    ∃ c', tNum o c = tNumRest o (sg == ['-']) (if sg = ['-'] then ['-'] else []) c' ∧ c'.txt = d :: t := by
  have hn : d ≠ 'n' := by intro e; rw [e] at hd; revert hd; decide
  have hi : d ≠ 'i' := by intro e; rw [e] at hd; revert hd; decide
  have hp : d ≠ '+' := by intro e; rw [e] at hd; revert hd; decide
  have hm : d ≠ '-' := by intro e; rw [e] at hd; revert hd; decide
  rcases hsg with e | e | e <;> subst e
  · have h : c.ch = d := Cur.ch_cons hc
    exact ⟨c, by simp [tNum, h, hp, hm, hn, hi], by simpa using hc⟩
  · have h : c.ch = '+' := Cur.ch_cons hc
    have h2 : c.tnext.txt = d :: t := by rw [Cur.tnext, Cur.next_txt, hc]; rfl
    exact ⟨c.tnext, by simp [tNum, h, Cur.ch_cons h2, hn, hi], h2⟩
  · have h : c.ch = '-' := Cur.ch_cons hc
    have h2 : c.tnext.txt = d :: t := by rw [Cur.tnext, Cur.next_txt, hc]; rfl
    exact ⟨c.tnext, by simp [tNum, h, Cur.ch_cons h2, hn, hi], h2⟩

theorem stop_num {r : List Char} (h : NotBefore (fun c => Bare c ∨ c = '.') r) :
    StopAt (fun x => isTIdent x || x == '.') r :=
  notBefore_stop h fun c hc => by
    simp only [Bool.or_eq_true, beq_iff_eq] at hc
    exact hc.imp (bare_iff c).2 id

theorem isDigU_ident {c : Char} (h : isDigU c = true) : isTIdent c = true := by
  simp only [isDigU, Bool.or_eq_true, beq_iff_eq] at h
  rcases h with h | h
  · rcases isDig_cases h with e | e | e | e | e | e | e | e | e | e <;> subst e <;> decide
  · subst h; decide

/-- An integer literal, whether or not it fits. -/
theorem tNumRest_int {o : TomlOps} {neg : Bool} {num s ds r : List Char} (hg : Grouped s ds)
    (hr : NotBefore (fun c => Bare c ∨ c = '.') r) {c : Cur} (hc : c.txt = s ++ r) :
    ∃ c', c'.txt = r ∧ tNumRest o neg num c = (match parseI64Str (num ++ ds) with
      | some n => .ok (if neg then .i64 n else .u64 n.toNat) c'
      | none => tErrParse "tokenizer" c') := by
  have hst := stop_num hr
  have key := span_run (k := rcol) (p := isDigU) (c := c) hc hg.all (hst.mono fun x hx => by
    simp [isDigU_ident hx])
  refine ⟨(c.span rcol isDigU).2, key.2, ?_⟩
  have h1 : (c.span rcol isDigU).2.ch ≠ '.' := hst.ch_ne key.2 (by decide) (by decide)
  have h2 : (c.span rcol isDigU).2.ch ≠ '-' := hst.ch_ne key.2 (by decide) (by decide)
  have h3 : isTIdent (c.span rcol isDigU).2.ch = false := by
    cases r with
    | nil => rw [Cur.ch_nil key.2]; decide
    | cons x r =>
      rw [Cur.ch_cons key.2]
      have := hst x r rfl
      simp only [Bool.or_eq_false_iff] at this
      exact this.1
  simp only [tNumRest, key.1, hg.filter]
  rw [if_neg h1, if_neg h2, h3, if_neg (by decide)]
  cases parseI64Str (num ++ ds) <;> rfl

theorem tNumRest_float {o : TomlOps} {neg : Bool} {num s ds f fs r : List Char} {x : BitVec 64} (hg : Grouped s ds)
    (hf : Grouped f fs) (hx : o.parse64 (num ++ ds ++ '.' :: fs) = some x)
    (hr : NotBefore (fun c => Digit c ∨ c = '_') r) {c : Cur} (hc : c.txt = s ++ '.' :: f ++ r) :
    ∃ c', tNumRest o neg num c = .ok (.f64 x) c' ∧ c'.txt = r := by
  have key := span_run (k := rcol) (p := isDigU) (c := c) (a := s) (b := '.' :: (f ++ r)) (by rw [hc]; simp) hg.all
    (StopAt.cons (by decide))
  have h1 : (c.span rcol isDigU).2.ch = '.' := Cur.ch_cons key.2
  have key2 := span_run (k := rcol) (p := isDigU) (c := (c.span rcol isDigU).2.tnext) (a := f) (b := r)
    (by rw [Cur.tnext, Cur.next_txt, key.2]; rfl) hf.all (notBefore_stop hr fun c hc => (digU_iff c).2 hc)
  refine ⟨_, ?_, key2.2⟩
  simp only [tNumRest, key.1, hg.filter, h1, if_true, key2.1, hf.filter, hx]

theorem filter_digits {ds : List Char} (h : ∀ c ∈ ds, isDig c = true) : ds.filter (· != '_') = ds := by
  apply List.filter_eq_self.2
  intro c hc
  have := h c hc
  simp only [bne_iff_ne, ne_eq]
  intro e
  rw [e] at this
  revert this; decide

theorem Digits.dig {ds : List Char} (h : Digits ds) : ∀ c ∈ ds, isDig c = true :=
  fun c hc => (digit_iff c).1 (h c hc)

theorem tNumRest_date {o : TomlOps} {neg : Bool} {num ds w r : List Char} (hd : Digits ds)
    (hw : ∀ c ∈ w, Digit c ∨ c = ':' ∨ c = '-' ∨ c = 'T')
    (hr : NotBefore (fun c => Digit c ∨ c = ':' ∨ c = '-' ∨ c = 'T') r) {c : Cur} (hc : c.txt = ds ++ '-' :: w ++ r) :
    ∃ c', tNumRest o neg num c = .ok (.date (num ++ ds ++ '-' :: w)) c' ∧ c'.txt = r := by
  have key := span_run (k := rcol) (p := isDigU) (c := c) (a := ds) (b := '-' :: (w ++ r)) (by rw [hc]; simp)
    (fun x hx => by simp [isDigU, hd.dig x hx]) (StopAt.cons (by decide))
  have h1 : (c.span rcol isDigU).2.ch = '-' := Cur.ch_cons key.2
  have key2 := span_run (k := rcol) (p := isTDate) (c := (c.span rcol isDigU).2.tnext) (a := w) (b := r)
    (by rw [Cur.tnext, Cur.next_txt, key.2]; rfl) (fun x hx => (tdate_iff x).1 (hw x hx))
    (notBefore_stop hr fun c hc => (tdate_iff c).2 hc)
  refine ⟨_, ?_, key2.2⟩
  simp only [tNumRest, key.1, filter_digits hd.dig, h1, key2.1]
  simp

theorem tNumRest_ident {o : TomlOps} {neg : Bool} {ds w r : List Char} {x : Char} (hd : Digits ds) (h0 : ds ≠ [])
    (hb : Bare x) (hx : ¬ Digit x) (hm : x ≠ '-') (hu : x ≠ '_')
    (hw : ∀ c ∈ w, Bare c ∨ c = '.') (hr : Terminated r) {c : Cur} (hc : c.txt = ds ++ x :: w ++ r) :
    ∃ c', tNumRest o neg [] c = .ok (.ident (ds ++ x :: w)) c' ∧ c'.txt = r := by
  have hxu : isDigU x = false := by
    cases h : isDigU x with
    | false => rfl
    | true => rcases (digU_iff x).2 h with h | h <;> contradiction
  have key := span_run (k := rcol) (p := isDigU) (c := c) (a := ds) (b := x :: (w ++ r)) (by rw [hc]; simp)
    (fun x hx => by simp [isDigU, hd.dig x hx]) (StopAt.cons hxu)
  have h1 : (c.span rcol isDigU).2.ch = x := Cur.ch_cons key.2
  have hdot : x ≠ '.' := by intro e; rw [e] at hb; have := (bare_iff _).1 hb; revert this; decide
  obtain ⟨c', e, ht⟩ := tIdent_run (start := ds) (w := x :: w) (r := r) (c := (c.span rcol isDigU).2)
    (by intro y hy; rcases List.mem_cons.1 hy with e | e
        · rw [e]; exact .inl hb
        · exact hw y e) hr (by rw [key.2]; rfl)
  refine ⟨c', ?_, ht⟩
  simp only [tNumRest, key.1, filter_digits hd.dig, h1]
  rw [if_neg hdot, if_neg hm, if_pos ((bare_iff x).1 hb), List.nil_append, e]
  obtain ⟨d, ds', rfl⟩ := List.exists_cons_of_ne_nil h0
  have hd0 := hd.dig d (List.mem_cons_self ..)
  have n1 : d ≠ 't' := by intro e; rw [e] at hd0; revert hd0; decide
  have n2 : d ≠ 'f' := by intro e; rw [e] at hd0; revert hd0; decide
  have n3 : d ≠ 'i' := by intro e; rw [e] at hd0; revert hd0; decide
  have n4 : d ≠ 'n' := by intro e; rw [e] at hd0; revert hd0; decide
  simp [n1, n2, n3, n4]

theorem tNum_signed {o : TomlOps} {sg x y z : Char} {b : Bool} {r : List Char}
    (hsg : sg = '+' ∧ b = false ∨ sg = '-' ∧ b = true) (hr : Terminated r) {c : Cur}
    (hc : c.txt = sg :: x :: y :: z :: r) (hw : (x = 'n' ∧ y = 'a' ∧ z = 'n') ∨ (x = 'i' ∧ y = 'n' ∧ z = 'f')) :
    ∃ c', tNum o c = .ok (if x = 'n' then .nan b else .inf b) c' ∧ c'.txt = r := by
  have h1 : c.tnext.txt = x :: y :: z :: r := by rw [Cur.tnext, Cur.next_txt, hc]; rfl
  have h2 : c.tnext.tnext.txt = y :: z :: r := by
    rw [show c.tnext.tnext.txt = c.tnext.txt.tail from Cur.next_txt .., h1]; rfl
  have h3 : c.tnext.tnext.tnext.txt = z :: r := by
    rw [show c.tnext.tnext.tnext.txt = c.tnext.tnext.txt.tail from Cur.next_txt .., h2]; rfl
  have h4 : c.tnext.tnext.tnext.tnext.txt = r := by
    rw [show c.tnext.tnext.tnext.tnext.txt = c.tnext.tnext.tnext.txt.tail from Cur.next_txt .., h3]; rfl
  have ht := terminated_ch hr h4
  refine ⟨c.tnext.tnext.tnext.tnext, ?_, h4⟩
  have a : c.ch = sg := Cur.ch_cons hc
  have a1 : c.tnext.ch = x := Cur.ch_cons h1
  have a2 : c.tnext.tnext.ch = y := Cur.ch_cons h2
  have a3 : c.tnext.tnext.tnext.ch = z := Cur.ch_cons h3
  rcases hsg with ⟨rfl, rfl⟩ | ⟨rfl, rfl⟩ <;> rcases hw with ⟨rfl, rfl, rfl⟩ | ⟨rfl, rfl, rfl⟩ <;>
    simp [tNum, tWord, a, a1, a2, a3, ht]

/-- The first character of a spelling is neither blank nor `#` nor the end. -/
theorem TSpell.head {o : TomlOps} {s r : List Char} {t : TTok} (h : TSpell o s r t) :
    ∃ x w, s = x :: w ∧ isWs x = false ∧ x ≠ '#' ∧ x ≠ '\x00' := by
  have dig : ∀ x, isDig x = true → isWs x = false ∧ x ≠ '#' ∧ x ≠ '\x00' := by
    intro x hx
    rcases isDig_cases hx with e | e | e | e | e | e | e | e | e | e <;> subst e <;> decide
  have bare : ∀ x, Bare x → isWs x = false ∧ x ≠ '#' ∧ x ≠ '\x00' := by
    intro x hx
    have hx := (bare_iff x).1 hx
    refine ⟨?_, ?_, ?_⟩
    · cases h : isWs x with
      | false => rfl
      | true =>
        rcases (blank_iff x).2 h with e | e | e | e <;> rw [e] at hx <;> revert hx <;> decide
    · intro e; rw [e] at hx; revert hx; decide
    · intro e; rw [e] at hx; revert hx; decide
  cases h with
  | comma | equals | blockOpen | blockClose | str | long | longEnd => exact ⟨_, _, rfl, by decide, by decide, by decide⟩
  | ident hb => exact ⟨_, _, rfl, bare _ hb⟩
  | numIdent h0 hd =>
    obtain ⟨d, ds', rfl⟩ := List.exists_cons_of_ne_nil h0
    exact ⟨d, _, rfl, dig _ (hd.dig d (List.mem_cons_self ..))⟩
  | word hw =>
    simp [tomlWords] at hw
    rcases hw with ⟨rfl, _⟩ | ⟨rfl, _⟩ | ⟨rfl, _⟩ | ⟨rfl, _⟩ <;> exact ⟨_, _, rfl, by decide, by decide, by decide⟩
  | pos hsg hg =>
    obtain ⟨d, r, rfl, hd⟩ := hg.head
    rcases hsg with rfl | rfl
    · exact ⟨_, _, rfl, dig _ hd⟩
    · exact ⟨_, _, rfl, by decide, by decide, by decide⟩
  | neg => exact ⟨_, _, rfl, by decide, by decide, by decide⟩
  | float hsg hg =>
    obtain ⟨d, r, rfl, hd⟩ := hg.head
    rcases hsg with ⟨rfl, _⟩ | ⟨rfl, _⟩ | ⟨rfl, _⟩
    · exact ⟨_, _, rfl, dig _ hd⟩
    · exact ⟨_, _, rfl, by decide, by decide, by decide⟩
    · exact ⟨_, _, rfl, by decide, by decide, by decide⟩
  | signedInf hsg | signedNan hsg =>
    rcases hsg with ⟨rfl, _⟩ | ⟨rfl, _⟩ <;> exact ⟨_, _, rfl, by decide, by decide, by decide⟩
  | date h0 hd =>
    obtain ⟨d, ds', rfl⟩ := List.exists_cons_of_ne_nil h0
    exact ⟨d, _, rfl, dig _ (hd.dig d (List.mem_cons_self ..))⟩

/-- Reading a spelling. -/
theorem tTok_spell {o : TomlOps} {s r : List Char} {t : TTok} (h : TSpell o s r t) {c : Cur}
    (hc : c.txt = s ++ r) : ∃ c', tTok o c = .ok t c' ∧ c'.txt = r := by
  have one : ∀ x, c.txt = x :: r → c.tnext.txt = r := by
    intro x h; rw [Cur.tnext, Cur.next_txt, h]; rfl
  cases h with
  | comma => exact ⟨c.tnext, by simp [tTok, Cur.ch_cons hc], one _ hc⟩
  | equals => exact ⟨c.tnext, by simp [tTok, Cur.ch_cons hc], one _ hc⟩
  | blockOpen => exact ⟨c.tnext, by simp [tTok, Cur.ch_cons hc], one _ hc⟩
  | blockClose => exact ⟨c.tnext, by simp [tTok, Cur.ch_cons hc], one _ hc⟩
  | str h0 hb =>
    obtain ⟨c', e, ht⟩ := tStr_short h0 hb hc
    exact ⟨c', by rw [← e]; simp [tTok, Cur.ch_cons hc, isDig], ht⟩
  | @long b s _ x hb hx =>
    obtain ⟨c', e, ht⟩ := tStr_long (r := x :: r) hb (by
      rcases hx with e | e | e | e <;> subst e <;> simp) (by rw [hc]; simp)
    exact ⟨c', by rw [← e]; simp [tTok, Cur.ch_cons hc, isDig], ht⟩
  | longEnd hb =>
    obtain ⟨c', e, ht⟩ := tStr_long (r := []) hb (by simp) (by rw [hc]; simp)
    exact ⟨c', by rw [← e]; simp [tTok, Cur.ch_cons hc, isDig], ht⟩
  | @ident x w _ hb hd hm hw hn hr =>
    obtain ⟨c', e, ht⟩ := tIdent_run (start := []) (w := x :: w) (by
      intro y hy; rcases List.mem_cons.1 hy with e | e
      · rw [e]; exact .inl hb
      · exact hw y e) hr hc
    refine ⟨c', ?_, ht⟩
    rw [tTok_ident (Cur.ch_cons hc) hb hd hm, e, List.nil_append, not_word hn]
  | @numIdent ds x w _ h0 hd hb hx hm hu hw hr =>
    obtain ⟨d, ds', rfl⟩ := List.exists_cons_of_ne_nil h0
    have hd0 := hd.dig d (List.mem_cons_self ..)
    obtain ⟨c1, e1, h1⟩ := tNum_digits (o := o) (c := c) (sg := []) (.inl rfl) hd0 (t := ds' ++ x :: w ++ r) (by rw [hc]; simp)
    obtain ⟨c', e, ht⟩ := tNumRest_ident (o := o) (neg := ([] : List Char) == ['-']) (c := c1) hd h0 hb hx hm hu hw hr
      (by rw [h1]; simp)
    refine ⟨c', ?_, ht⟩
    rw [tTok_num (.inr (.inr (by rw [Cur.ch_cons (c := c) (x := d) hc]; exact hd0))), e1, if_neg (by simp), e]
  | @word w t _ hw hr =>
    simp [tomlWords] at hw
    have key : ∀ x w, s = x :: w → Bare x → ¬ Digit x → x ≠ '-' → (∀ y ∈ w, Bare y) →
        (if s = ['t', 'r', 'u', 'e'] then TTok.bool true else if s = ['f', 'a', 'l', 's', 'e'] then .bool false
          else if s = ['i', 'n', 'f'] then .inf false else if s = ['n', 'a', 'n'] then .nan false else .ident s) = t →
        ∃ c', tTok o c = .ok t c' ∧ c'.txt = r := by
      intro x w e hb hd hm hwb ht
      subst e
      obtain ⟨c', e, h⟩ := tIdent_run (start := []) (w := x :: w) (by
        intro y hy; rcases List.mem_cons.1 hy with e | e
        · rw [e]; exact .inl hb
        · exact .inl (hwb y e)) hr hc
      exact ⟨c', by rw [tTok_ident (Cur.ch_cons hc) hb hd hm, e, List.nil_append, ht], h⟩
    rcases hw with ⟨rfl, rfl⟩ | ⟨rfl, rfl⟩ | ⟨rfl, rfl⟩ | ⟨rfl, rfl⟩ <;>
      exact key _ _ rfl ((bare_iff _).2 (by decide)) (by rw [digit_iff]; decide) (by decide)
        (by intro y hy; rw [bare_iff]; revert y; decide) rfl
  | @pos sg s ds _ hsg hg hv hr =>
    obtain ⟨d, t, rfl, hd⟩ := hg.head
    obtain ⟨c1, e1, h1⟩ := tNum_digits (o := o) (c := c) (sg := sg) (hsg.imp id .inl) hd (t := t ++ r) (by rw [hc]; simp)
    obtain ⟨c', ht, e⟩ := tNumRest_int (o := o) (neg := sg == ['-']) (num := if sg = ['-'] then ['-'] else [])
      (c := c1) hg hr (by rw [h1]; simp)
    refine ⟨c', ?_, ht⟩
    have hn : c.ch = '+' ∨ c.ch = '-' ∨ isDig c.ch = true := by
      rcases hsg with rfl | rfl
      · exact .inr (.inr (by rw [Cur.ch_cons (c := c) (x := d) hc]; exact hd))
      · exact .inl (Cur.ch_cons hc)
    have hsg' : sg ≠ ['-'] := by rcases hsg with rfl | rfl <;> simp
    rw [tTok_num hn, e1, e, if_neg hsg', List.nil_append, parseI64_pos hg.digits.1 hg.digits.2 hv]
    simp [hsg']
  | @neg s ds _ hg hv hr =>
    obtain ⟨d, t, rfl, hd⟩ := hg.head
    obtain ⟨c1, e1, h1⟩ := tNum_digits (o := o) (c := c) (sg := ['-']) (.inr (.inr rfl)) hd (t := t ++ r) (by rw [hc]; simp)
    obtain ⟨c', ht, e⟩ := tNumRest_int (o := o) (neg := ['-'] == ['-']) (num := ['-'])
      (c := c1) hg hr (by rw [h1]; simp)
    refine ⟨c', ?_, ht⟩
    rw [tTok_num (.inr (.inl (Cur.ch_cons hc))), e1, if_pos rfl, e]
    simp only [List.cons_append, List.nil_append]
    rw [parseI64_neg hg.digits.1 hg.digits.2 hv]
    simp
  | @float sg sg' s ds f fs x _ hsg hg hf hx hr =>
    obtain ⟨d, t, rfl, hd⟩ := hg.head
    obtain ⟨c1, e1, h1⟩ := tNum_digits (o := o) (c := c) (sg := sg)
      (by rcases hsg with h | h | h <;> simp [h.1]) hd (t := t ++ '.' :: f ++ r) (by rw [hc]; simp)
    have hs : (if sg = ['-'] then ['-'] else []) = sg' := by
      rcases hsg with ⟨rfl, rfl⟩ | ⟨rfl, rfl⟩ | ⟨rfl, rfl⟩ <;> simp
    obtain ⟨c', e, ht⟩ := tNumRest_float (o := o) (neg := sg == ['-']) (num := sg') (c := c1) hg hf hx hr (by rw [h1]; simp)
    refine ⟨c', ?_, ht⟩
    have hn : c.ch = '+' ∨ c.ch = '-' ∨ isDig c.ch = true := by
      rcases hsg with ⟨rfl, _⟩ | ⟨rfl, _⟩ | ⟨rfl, _⟩
      · exact .inr (.inr (by rw [Cur.ch_cons (c := c) (x := d) hc]; exact hd))
      · exact .inl (Cur.ch_cons hc)
      · exact .inr (.inl (Cur.ch_cons hc))
    rw [tTok_num hn, e1, hs, e]
  | @signedInf sg b _ hsg hr =>
    obtain ⟨c', e, ht⟩ := tNum_signed (o := o) (c := c) hsg hr hc (.inr ⟨rfl, rfl, rfl⟩)
    refine ⟨c', ?_, ht⟩
    rw [tTok_num (by rw [Cur.ch_cons (c := c) hc]; rcases hsg with ⟨rfl, _⟩ | ⟨rfl, _⟩ <;> simp), e]
    simp
  | @signedNan sg b _ hsg hr =>
    obtain ⟨c', e, ht⟩ := tNum_signed (o := o) (c := c) hsg hr hc (.inl ⟨rfl, rfl, rfl⟩)
    refine ⟨c', ?_, ht⟩
    rw [tTok_num (by rw [Cur.ch_cons (c := c) hc]; rcases hsg with ⟨rfl, _⟩ | ⟨rfl, _⟩ <;> simp), e]
    simp
  | @date ds w _ h0 hd hw hr =>
    obtain ⟨d, ds', rfl⟩ := List.exists_cons_of_ne_nil h0
    have hd0 := hd.dig d (List.mem_cons_self ..)
    obtain ⟨c1, e1, h1⟩ := tNum_digits (o := o) (c := c) (sg := []) (.inl rfl) hd0 (t := ds' ++ '-' :: w ++ r) (by rw [hc]; simp)
    obtain ⟨c', e, ht⟩ := tNumRest_date (o := o) (neg := ([] : List Char) == ['-']) (num := []) (c := c1) hd hw hr
      (by rw [h1]; simp)
    refine ⟨c', ?_, ht⟩
    rw [tTok_num (.inr (.inr (by rw [Cur.ch_cons (c := c) (x := d) hc]; exact hd0))), e1, if_neg (by simp), e]
    simp

/-- `next_tok` at a spelling behind layout. -/
theorem tNext_spell {o : TomlOps} {w s r : List Char} {t : TTok} (hw : TLayout w) (h : TSpell o s r t) {c : Cur}
    (hc : c.txt = w ++ s ++ r) : ∃ c', tNext o c = .ok t c' ∧ c'.txt = r := by
  obtain ⟨x, s', rfl, h1, h2, h3⟩ := h.head
  obtain ⟨d, e, hd⟩ := tSkip_layout hw (rest := x :: s' ++ r) (by
    intro y q e; injection e with e _; subst e; simp [h1, h2]) (n := c.txt.length + 1) (c := c)
    (by rw [hc]; simp) (by rw [hc]; simp; omega)
  obtain ⟨c', e', ht⟩ := tTok_spell h hd
  exact ⟨c', by simp only [tNext, e, e'], ht⟩

/-- `next_tok` at the end. -/
theorem tNext_end {o : TomlOps} {w : List Char} (hw : TLayoutEnd w) {c : Cur} (hc : c.txt = w) :
    ∃ c', tNext o c = .ok .eof c' ∧ c'.txt = [] := by
  obtain ⟨d, e, hd⟩ := tSkip_end hw hc
  exact ⟨d, by simp [tNext, e, tTok, Cur.ch_nil hd], hd⟩

end NS
