import Verif.Lemmas.TomlScan
/-! The TOML lexer reads exactly the spellings of `TSpells`: numbers, and the token as a whole. -/
namespace NS
variable {o : TomlOps}

theorem ungrouped_eq (g : List Char) : g.filter (· != '_') = ungrouped g := by
  unfold ungrouped
  congr 1
  funext x
  by_cases e : x = '_' <;> simp [e]

theorem Digitish.all {g : List Char} (h : Digitish g) : ∀ x ∈ g, isDigU x = true := fun x hx => (digU_iff x).1 (h x hx)

theorem Digitish.dig {g : List Char} (h : Digitish g) : ∀ x ∈ ungrouped g, isDig x = true := by
  intro x hx
  simp only [ungrouped, List.mem_filter, decide_eq_true_eq] at hx
  rcases h x hx.1 with h | h
  · exact (digit_iff x).1 h
  · exact absurd h hx.2

/-! ## Parts of `nan` and `inf` -/

theorem tWord_sound (w : List Char) (hw : '\x00' ∉ w) : ∀ c : Cur, ∃ q, w = (tWord w c).1 ++ q ∧
    ((tWord w c).2.1 = true ↔ q = []) ∧ ∀ x, q.head? = some x → (tWord w c).2.2.txt.head? ≠ some x := by
  induction w with
  | nil => intro c; exact ⟨[], rfl, by simp [tWord], by simp⟩
  | cons x w ih =>
    intro c
    simp only [List.mem_cons, not_or] at hw
    simp only [tWord]
    split
    · rename_i hc
      obtain ⟨q, h1, h2, h3⟩ := ih hw.2 c.tnext
      exact ⟨q, by simp only [List.cons_append, ← h1], h2, h3⟩
    · rename_i hc
      refine ⟨x :: w, rfl, by simp, ?_⟩
      intro y hy e
      simp only [List.head?_cons, Option.some.injEq] at hy
      subst hy
      apply hc
      rw [Cur.ch_eq]
      cases hx : c.txt with
      | nil => rw [hx] at e; cases e
      | cons z t => rw [hx] at e; simpa using e

theorem tWord_complete {q : List Char} : ∀ {p r : List Char} {c : Cur}, '\x00' ∉ p ++ q → c.txt = p ++ r →
    (∀ x, q.head? = some x → r.head? ≠ some x) →
    (tWord (p ++ q) c).1 = p ∧ ((tWord (p ++ q) c).2.1 = true ↔ q = []) ∧ (tWord (p ++ q) c).2.2.txt = r := by
  intro p
  induction p with
  | nil =>
    intro r c hz hc hq
    cases q with
    | nil => exact ⟨rfl, by simp [tWord], hc⟩
    | cons x q =>
      have : c.ch ≠ x := by
        intro e
        cases hx : c.txt with
        | nil =>
          rw [Cur.ch_nil hx] at e
          exact absurd List.mem_cons_self (e ▸ hz)
        | cons y t =>
          rw [Cur.ch_cons hx] at e
          have h : r = y :: t := by rw [← hx, hc]; rfl
          exact hq x rfl (by rw [h, e]; rfl)
      simp only [List.nil_append, tWord, if_neg this]
      exact ⟨trivial, by simp, hc⟩
  | cons y p ih =>
    intro r c hz hc hq
    simp only [List.cons_append, List.mem_cons, not_or] at hz
    have := ih (r := r) (c := c.tnext) hz.2 (tnext_cons hc) hq
    have hy : c.ch = y := Cur.ch_cons hc
    simp only [List.cons_append, tWord, if_pos hy]
    exact ⟨by rw [this.1], this.2⟩

/-- Is the sign `-`? -/
def SignOf (a : List Char) : Bool := a.head? == some '-'

/-- After the sign: the rest of `parse_num` in front of the digits. -/
def tAfterSign (o : TomlOps) (neg : Bool) (n : List Char) : TM TTok := fun d =>
  if d.ch = 'n' then
    let w := tWord ['n', 'a', 'n'] d
    if w.2.1 && isTTerm w.2.2.ch then .ok (.nan neg) w.2.2
    else tNumRest o neg (n ++ w.1) w.2.2
  else if d.ch = 'i' then
    let w := tWord ['i', 'n', 'f'] d
    if w.2.1 && isTTerm w.2.2.ch then .ok (.inf neg) w.2.2
    else tNumRest o neg (n ++ w.1) w.2.2
  else tNumRest o neg n d

theorem tNum_plus {c : Cur} (h : c.ch = '+') : tNum o c = tAfterSign o false [] c.tnext := by
  simp only [tNum, tAfterSign, h, if_true]
theorem tNum_minus {c : Cur} (h : c.ch = '-') : tNum o c = tAfterSign o true ['-'] c.tnext := by
  simp only [tNum, tAfterSign, h, if_neg (show '-' ≠ '+' by decide), if_true]
theorem tNum_digit {c : Cur} (h : isDig c.ch = true) : tNum o c = tNumRest o false [] c := by
  have hn : c.ch ≠ 'n' := by intro e; rw [e] at h; revert h; decide
  have hi : c.ch ≠ 'i' := by intro e; rw [e] at h; revert h; decide
  have hp : c.ch ≠ '+' := by intro e; rw [e] at h; revert h; decide
  have hm : c.ch ≠ '-' := by intro e; rw [e] at h; revert h; decide
  simp only [tNum, if_neg hp, if_neg hm, if_neg hn, if_neg hi]

theorem head_iff {d : Cur} {x : Char} (hx : x ≠ '\x00') : d.txt.head? = some x ↔ d.ch = x := by
  cases h : d.txt with
  | nil => rw [Cur.ch_nil h]; simp [Ne.symm hx]
  | cons y t => rw [Cur.ch_cons h]; simp

theorem tAfterSign_word {neg : Bool} {n : List Char} {d c' : Cur} {t tw : TTok} {w : List Char}
    (hw : w = ['n', 'a', 'n'] ∨ w = ['i', 'n', 'f']) (hd : w.head? = some d.ch)
    (h : (if (tWord w d).2.1 && isTTerm (tWord w d).2.2.ch then .ok tw (tWord w d).2.2
      else tNumRest o neg (n ++ (tWord w d).1) (tWord w d).2.2) = .ok t c') :
    (d.txt = w ++ c'.txt ∧ TWordEnds c'.txt ∧ t = tw) ∨
    ∃ p d', TBegun p d'.txt ∧ d.txt = p ++ d'.txt ∧ tNumRest o neg (n ++ p) d' = .ok t c' := by
  have hz : '\x00' ∉ w := by rcases hw with rfl | rfl <;> decide
  obtain ⟨q, h1, h2, h3⟩ := tWord_sound w hz d
  have h4 := (tWord_local w hz d).1
  generalize tWord w d = r at *
  have hp : r.1 ≠ [] := by
    intro e
    rw [e, List.nil_append] at h1 h4
    rw [← h1, ← h4] at h3
    exact h3 _ hd ((head_iff (by intro e; rw [e] at hd; rcases hw with rfl | rfl <;> revert hd <;> decide)).2 rfl)
  split at h
  · rename_i hc
    simp only [Bool.and_eq_true] at hc
    have := h2.1 hc.1
    subst this
    injection h with e1 e2
    subst e1 e2
    rw [List.append_nil] at h1
    exact .inl ⟨by rw [h1]; exact h4, TWordEnds.iff.2 hc.2, rfl⟩
  · rename_i hc
    refine .inr ⟨r.1, r.2.2, .inr ⟨w, q, hw, h1, hp, h3, ?_⟩, h4, h⟩
    intro e he
    exact hc (by rw [h2.2 e, TWordEnds.iff.1 he]; rfl)

theorem tAfterSign_sound {neg : Bool} {n : List Char} {d c' : Cur} {t : TTok} (h : tAfterSign o neg n d = .ok t c') :
    (d.txt = ['n', 'a', 'n'] ++ c'.txt ∧ TWordEnds c'.txt ∧ t = .nan neg) ∨
    (d.txt = ['i', 'n', 'f'] ++ c'.txt ∧ TWordEnds c'.txt ∧ t = .inf neg) ∨
    ∃ p d', TBegun p d'.txt ∧ d.txt = p ++ d'.txt ∧ tNumRest o neg (n ++ p) d' = .ok t c' := by
  simp only [tAfterSign] at h
  split at h
  · rename_i hd
    rcases tAfterSign_word (.inl rfl) (by rw [hd]; rfl) h with h | h
    · exact .inl h
    · exact .inr (.inr h)
  · rename_i hn
    split at h
    · rename_i hd
      rcases tAfterSign_word (.inr rfl) (by rw [hd]; rfl) h with h | h
      · exact .inr (.inl h)
      · exact .inr (.inr h)
    · rename_i hi
      refine .inr (.inr ⟨[], d, .inl ⟨rfl, ?_, ?_⟩, rfl, by simpa using h⟩)
      · rw [Ne, head_iff (by decide)]; exact hn
      · rw [Ne, head_iff (by decide)]; exact hi

theorem tAfterSign_begun {neg : Bool} {n p r : List Char} (h : TBegun p r) {d : Cur} (hd : d.txt = p ++ r) :
    ∃ d', tAfterSign o neg n d = tNumRest o neg (n ++ p) d' ∧ d'.txt = r := by
  rcases h with ⟨rfl, h1, h2⟩ | ⟨w, q, hw, h1, h2, h3, h4⟩
  · rw [List.nil_append] at hd
    rw [← hd, Ne, head_iff (by decide)] at h1 h2
    refine ⟨d, ?_, hd⟩
    simp only [tAfterSign, if_neg h1, if_neg h2, List.append_nil]
  · obtain ⟨x, p', rfl⟩ : ∃ x p', p = x :: p' := by
      cases p with
      | nil => exact absurd rfl h2
      | cons x p' => exact ⟨x, p', rfl⟩
    have hch : d.ch = x := Cur.ch_cons hd
    have hz : '\x00' ∉ (x :: p') ++ q := by rw [← h1]; rcases hw with rfl | rfl <;> decide
    have key := tWord_complete hz hd h3
    rw [← h1] at key
    refine ⟨(tWord w d).2.2, ?_, key.2.2⟩
    have hno : ((tWord w d).2.1 && isTTerm (tWord w d).2.2.ch) = false := by
      cases hb : ((tWord w d).2.1 && isTTerm (tWord w d).2.2.ch) with
      | false => rfl
      | true =>
        simp only [Bool.and_eq_true] at hb
        have := key.2.1.1 hb.1
        have g := TWordEnds.iff.2 hb.2
        rw [key.2.2] at g
        exact absurd g (h4 this)
    rcases hw with rfl | rfl
    · have hx : x = 'n' := by injection h1 with h1 _; exact h1.symm
      subst hx
      simp only [tAfterSign, hch, if_true, hno, key.1]
      simp
    · have hx : x = 'i' := by injection h1 with h1 _; exact h1.symm
      subst hx
      simp only [tAfterSign, hch, if_neg (show 'i' ≠ 'n' by decide), if_true, hno, key.1]
      simp

theorem tAfterSign_full {neg : Bool} {n w r : List Char} (hw : w = ['n', 'a', 'n'] ∨ w = ['i', 'n', 'f'])
    (hr : TWordEnds r) {d : Cur} (hd : d.txt = w ++ r) :
    ∃ d', tAfterSign o neg n d = .ok (if w = ['n', 'a', 'n'] then .nan neg else .inf neg) d' ∧ d'.txt = r := by
  have hz : '\x00' ∉ w ++ [] := by rcases hw with rfl | rfl <;> decide
  have key := tWord_complete hz hd (by simp)
  rw [List.append_nil] at key
  refine ⟨(tWord w d).2.2, ?_, key.2.2⟩
  have ht : isTTerm (tWord w d).2.2.ch = true := TWordEnds.iff.1 (by rw [key.2.2]; exact hr)
  rcases hw with rfl | rfl
  · have hch : d.ch = 'n' := Cur.ch_cons hd
    simp only [tAfterSign, hch, if_true, ht, key.2.1.2 rfl]
    rfl
  · have hch : d.ch = 'i' := Cur.ch_cons hd
    simp only [tAfterSign, hch, if_true, if_neg (show 'i' ≠ 'n' by decide), ht, key.2.1.2 rfl]
    rfl

/-! ## The digits and what follows -/

theorem parseI64_word {n ds : List Char} {x : Char} (hx : isDig x = false) (h1 : x ≠ '-') (h2 : x ≠ '+') :
    parseI64Str (x :: n ++ ds) = none ∧ parseI64Str ('-' :: x :: n ++ ds) = none := by
  constructor
  · simp only [parseI64Str, List.cons_append, splitSign, if_neg h1, if_neg h2]
    simp [hx]
  · simp only [parseI64Str, List.cons_append, splitSign, if_true]
    simp [hx]

theorem TBegun.head {p r : List Char} (h : TBegun p r) : p = [] ∨ ∃ x p', p = x :: p' ∧ (x = 'n' ∨ x = 'i') := by
  rcases h with ⟨rfl, _⟩ | ⟨w, q, hw, h1, h2, _⟩
  · exact .inl rfl
  · right
    cases p with
    | nil => exact absurd rfl h2
    | cons x p =>
      refine ⟨x, p, rfl, ?_⟩
      rcases hw with rfl | rfl <;> injection h1 with h1 _
      · exact .inl h1.symm
      · exact .inr h1.symm

/-- `parse_num` from the digits on. -/
theorem tNumRest_sound {a n : List Char} {d c' : Cur} {t : TTok} (hl : TLead a n d.txt)
    (h : tNumRest o (SignOf a) n d = .ok t c') : ∃ s, d.txt = s ++ c'.txt ∧ TSpells o (a ++ s) c'.txt t := by
  simp only [tNumRest] at h
  obtain ⟨d1, d2, d3⟩ := span_dec isDigU d
  generalize d.span rcol isDigU = g at *
  rw [ungrouped_eq] at h
  have hg : Digitish g.1 := fun x hx => (digU_iff x).2 (d2 x hx)
  rw [d1] at hl
  split at h
  · rename_i hc
    obtain ⟨f1, f2, f3⟩ := span_dec isDigU g.2.tnext
    generalize g.2.tnext.span rcol isDigU = f at *
    have h0 := tnext_dec (c := g.2) (by rw [hc]; decide)
    rw [hc] at h0
    rw [ungrouped_eq] at h
    split at h
    · rename_i x hx
      injection h with e1 e2
      subst e1 e2
      have hf : Digitish f.1 := fun x hx => (digU_iff x).2 (f2 x hx)
      refine ⟨g.1 ++ '.' :: f.1, by rw [d1, h0, f1]; simp, ?_⟩
      rw [h0, f1] at hl
      have := TSpells.float (o := o) (x := x) hl hg hf (fun y hy hq => by
        cases hr : f.2.txt with
        | nil => rw [hr] at hy; cases hy
        | cons z t =>
          rw [hr] at hy
          injection hy with hy
          subst hy
          have := f3 z t hr
          rw [(digU_iff z).1 hq] at this
          cases this) hx
      rw [← List.append_assoc]; exact this
    · cases h
  · rename_i hdot
    split at h
    · rename_i hc
      obtain ⟨f1, f2, f3⟩ := span_dec isTDate g.2.tnext
      generalize g.2.tnext.span rcol isTDate = f at *
      have h0 := tnext_dec (c := g.2) (by rw [hc]; decide)
      rw [hc] at h0
      injection h with e1 e2
      subst e1 e2
      refine ⟨g.1 ++ '-' :: f.1, by rw [d1, h0, f1]; simp, ?_⟩
      rw [h0, f1] at hl
      have := TSpells.date (o := o) hl hg (fun x hx => (tdate_iff x).2 (f2 x hx)) (fun y hy hq => by
        cases hr : f.2.txt with
        | nil => rw [hr] at hy; cases hy
        | cons z t =>
          rw [hr] at hy
          injection hy with hy
          subst hy
          have := f3 z t hr
          rw [(tdate_iff z).1 hq] at this
          cases this)
      rw [← List.append_assoc]; exact this
    · rename_i hdash
      split at h
      · rename_i hb
        obtain ⟨w, g1, g2, g3, g4⟩ := tIdent_sound h
        have hz : g.2.ch ≠ '\x00' := by intro e; rw [e] at hb; revert hb; decide
        have h0 := tnext_dec hz
        obtain ⟨w', rfl⟩ : ∃ w', w = g.2.ch :: w' := by
          cases w with
          | nil =>
            exfalso
            rw [List.nil_append] at g1
            have hs := wordEnds_stop (r := g.2.txt) (by rw [g1]; exact g3) g.2.ch _ h0
            simp [hb] at hs
          | cons y w' =>
            rw [h0] at g1
            injection g1 with g1 _
            exact ⟨w', by rw [g1]⟩
        rw [List.cons_append] at g1
        have hu : isDigU g.2.ch = false := d3 _ _ h0
        have hnd : ¬ Digit g.2.ch := fun hd => by
          rw [(digU_iff g.2.ch).1 (.inl hd)] at hu; cases hu
        have hnu : g.2.ch ≠ '_' := fun hd => by
          rw [(digU_iff g.2.ch).1 (.inr hd)] at hu; cases hu
        rw [g1] at hl
        refine ⟨g.1 ++ g.2.ch :: w', by rw [d1, g1]; simp [Cur.ch], ?_⟩
        have := TSpells.numBare (o := o) hl hg ((bare_iff _).2 hb) hnd hnu hdash
          (fun x hx => g2 x (List.mem_cons_of_mem _ hx)) g3 g4
        rw [← List.append_assoc]; exact this
      · rename_i hb
        have hstop : NotBefore (fun c => Bare c ∨ c = '.') g.2.txt := by
          intro y hy
          cases hr : g.2.txt with
          | nil => rw [hr] at hy; cases hy
          | cons z t =>
            rw [hr] at hy
            injection hy with hy
            subst hy
            rw [Cur.ch_cons hr] at hb hdot
            rintro (h | h)
            · exact hb ((bare_iff z).1 h)
            · exact hdot h
        split at h
        · rename_i i hi
          injection h with e1 e2
          subst e1 e2
          refine ⟨g.1, d1, ?_⟩
          generalize hG : g.1 ++ g.2.txt = G at hl
          have nonempty : ∀ m, parseI64Str (m ++ ungrouped g.1) = some i → m = [] ∨ m = ['-'] → ungrouped g.1 ≠ [] := by
            intro m hm hm' e
            rw [e] at hm
            rcases hm' with rfl | rfl <;> simp [parseI64Str, splitSign] at hm
          have wrong : ∀ p, TBegun p G → p ≠ [] → parseI64Str (p ++ ungrouped g.1) = none ∧
              parseI64Str ('-' :: p ++ ungrouped g.1) = none := by
            intro p hp hne
            rcases hp.head with rfl | ⟨x, p', rfl, hx⟩
            · exact absurd rfl hne
            · rcases hx with rfl | rfl
              · exact parseI64_word (by decide) (by decide) (by decide)
              · exact parseI64_word (by decide) (by decide) (by decide)
          have pos : ∀ a, (a = [] ∨ a = ['+']) → TLead a [] (g.1 ++ g.2.txt) →
              parseI64Str (ungrouped g.1) = some i → TSpells o (a ++ g.1) g.2.txt (.u64 i.toNat) := by
            intro a ha hl hi
            have hne := nonempty [] hi (.inl rfl)
            have hlt : decimal (ungrouped g.1) < 2 ^ 63 := by
              rcases Nat.lt_or_ge (decimal (ungrouped g.1)) (2 ^ 63) with h | h
              · exact h
              · rw [parseI64_pos_big hg.dig h] at hi; cases hi
            rw [parseI64_pos hne hg.dig hlt] at hi
            injection hi with hi
            subst hi
            exact .pos ha hl hg hne hlt hstop
          cases hl with
          | none hd =>
            have e : SignOf [] = false := rfl
            rw [e]
            refine pos [] (.inl rfl) (by rw [hG]; exact .none hd) (by simpa using hi)
          | plus hp =>
            by_cases hne : n = []
            · subst hne
              have e : SignOf ['+'] = false := rfl
              rw [e]
              exact pos ['+'] (.inr rfl) (by rw [hG]; exact .plus hp) (by simpa using hi)
            · rw [(wrong _ hp hne).1] at hi; cases hi
          | minus hp =>
            rename_i p
            by_cases hne : p = []
            · subst hne
              have hne := nonempty ['-'] hi (.inr rfl)
              have hlt : decimal (ungrouped g.1) ≤ 2 ^ 63 := by
                rcases Nat.lt_or_ge (2 ^ 63) (decimal (ungrouped g.1)) with h | h
                · have := parseI64_neg_big hg.dig h
                  rw [show ['-'] ++ ungrouped g.1 = '-' :: ungrouped g.1 from rfl, this] at hi; cases hi
                · exact h
              rw [show ['-'] ++ ungrouped g.1 = '-' :: ungrouped g.1 from rfl, parseI64_neg hne hg.dig hlt] at hi
              injection hi with hi
              subst hi
              have e : SignOf ['-'] = true := rfl
              rw [e]
              exact TSpells.neg (o := o) (g := g.1) (by rw [hG]; exact .minus hp) hg hne hlt hstop
            · rw [(wrong _ hp hne).2] at hi; cases hi
        · cases h

/-- `parse_num`. -/
theorem tNum_sound {c c' : Cur} {t : TTok} (hc : c.ch = '+' ∨ c.ch = '-' ∨ isDig c.ch = true)
    (h : tNum o c = .ok t c') : ∃ s, c.txt = s ++ c'.txt ∧ TSpells o s c'.txt t := by
  rcases hc with hc | hc | hc
  · have h0 := tnext_dec (c := c) (by rw [hc]; decide)
    rw [hc] at h0
    rw [tNum_plus hc] at h
    rcases tAfterSign_sound h with ⟨h1, h2, rfl⟩ | ⟨h1, h2, rfl⟩ | ⟨p, d, h1, h2, h3⟩
    · exact ⟨_, by rw [h0, h1]; rfl, .signedNan (.inl ⟨rfl, rfl⟩) h2⟩
    · exact ⟨_, by rw [h0, h1]; rfl, .signedInf (.inl ⟨rfl, rfl⟩) h2⟩
    · obtain ⟨s, g1, g2⟩ := tNumRest_sound (a := '+' :: p) (n := p) (.plus h1) h3
      exact ⟨_, by rw [h0, h2, g1]; simp, g2⟩
  · have h0 := tnext_dec (c := c) (by rw [hc]; decide)
    rw [hc] at h0
    rw [tNum_minus hc] at h
    rcases tAfterSign_sound h with ⟨h1, h2, rfl⟩ | ⟨h1, h2, rfl⟩ | ⟨p, d, h1, h2, h3⟩
    · exact ⟨_, by rw [h0, h1]; rfl, .signedNan (.inr ⟨rfl, rfl⟩) h2⟩
    · exact ⟨_, by rw [h0, h1]; rfl, .signedInf (.inr ⟨rfl, rfl⟩) h2⟩
    · obtain ⟨s, g1, g2⟩ := tNumRest_sound (a := '-' :: p) (n := '-' :: p) (.minus h1) h3
      exact ⟨_, by rw [h0, h2, g1]; simp, g2⟩
  · rw [tNum_digit hc] at h
    have h0 := tnext_dec (c := c) (by intro e; rw [e] at hc; revert hc; decide)
    obtain ⟨s, g1, g2⟩ := tNumRest_sound (a := []) (n := []) (d := c)
      (by rw [h0]; exact .none ((digit_iff _).2 hc)) h
    exact ⟨s, g1, g2⟩

/-- Every token read is spelled out, or is the end. -/
theorem tTok_sound {c c' : Cur} {t : TTok} (h : tTok o c = .ok t c') :
    (∃ s, c.txt = s ++ c'.txt ∧ TSpells o s c'.txt t) ∨ (t = .eof ∧ c' = c ∧ TEnds c.txt) := by
  have one : ∀ x, c.ch = x → x ≠ '\x00' → c.txt = [x] ++ c.tnext.txt := by
    intro x hx h0
    rw [← hx]
    exact tnext_dec (by rw [hx]; exact h0)
  simp only [tTok] at h
  split at h
  · rename_i hc
    cases h
    exact .inr ⟨rfl, rfl, TEnds.iff.2 hc⟩
  split at h
  · rename_i hc; cases h; exact .inl ⟨_, one _ hc (by decide), .comma⟩
  split at h
  · rename_i hc; cases h; exact .inl ⟨_, one _ hc (by decide), .blockOpen⟩
  split at h
  · rename_i hc; cases h; exact .inl ⟨_, one _ hc (by decide), .blockClose⟩
  split at h
  · rename_i hc; cases h; exact .inl ⟨_, one _ hc (by decide), .equals⟩
  split at h
  · rename_i hc; exact .inl (tNum_sound hc h)
  split at h
  · rename_i hc; exact .inl (tStr_sound hc h)
  split at h
  · rename_i h0 _ _ _ _ hs hq hb
    obtain ⟨w, g1, g2, g3, g4⟩ := tIdent_sound h
    have d0 := tnext_dec h0
    obtain ⟨w', rfl⟩ : ∃ w', w = c.ch :: w' := by
      cases w with
      | nil =>
        exfalso
        rw [List.nil_append] at g1
        have hs := wordEnds_stop (r := c.txt) (by rw [g1]; exact g3) c.ch _ d0
        simp [hb] at hs
      | cons y w' =>
        rw [d0] at g1
        injection g1 with g1 _
        exact ⟨w', by rw [g1]⟩
    simp only [not_or] at hs
    exact .inl ⟨_, g1, .bare ((bare_iff _).2 hb) (fun hd => hs.2.2 ((digit_iff _).1 hd)) hs.2.1
      (fun x hx => g2 x (List.mem_cons_of_mem _ hx)) g3 g4⟩
  · cases h

/-- How spellings begin. -/
theorem TSpells.head {s r : List Char} {t : TTok} (h : TSpells o s r t) :
    ∃ x w, s = x :: w ∧ isWs x = false ∧ x ≠ '#' ∧ x ≠ '\x00' := by
  have dig : ∀ x, isDig x = true → isWs x = false ∧ x ≠ '#' ∧ x ≠ '\x00' := by
    intro x hx
    rcases isDig_cases hx with e | e | e | e | e | e | e | e | e | e <;> subst e <;> decide
  have bare : ∀ x, Bare x → isWs x = false ∧ x ≠ '#' ∧ x ≠ '\x00' := by
    intro x hx
    have hx := (bare_iff x).1 hx
    refine ⟨?_, ?_, ?_⟩
    · cases h : isWs x with
      | false => rfl
      | true =>
        have := (blank_iff x).2 h
        unfold Blank at this
        rcases this with e | e | e | e <;> rw [e] at hx <;> revert hx <;> decide
    · intro e; rw [e] at hx; revert hx; decide
    · intro e; rw [e] at hx; revert hx; decide
  have lead : ∀ {a n g q : List Char}, TLead a n (g ++ q) → (g = [] → ∀ c t, q = c :: t → ¬ Digit c) → ∀ q',
      ∃ x w, a ++ (g ++ q') = x :: w ∧ isWs x = false ∧ x ≠ '#' ∧ x ≠ '\x00' := by
    intro a n g q hl hq q'
    generalize hG : g ++ q = G at hl
    cases hl with
    | none hd =>
      cases g with
      | nil => exact absurd hd (hq rfl _ _ hG)
      | cons y g =>
        injection hG with h1 _
        subst h1
        exact ⟨_, _, rfl, dig _ ((digit_iff _).1 hd)⟩
    | plus => exact ⟨_, _, rfl, by decide⟩
    | minus => exact ⟨_, _, rfl, by decide⟩
  cases h with
  | comma => exact ⟨_, _, rfl, by decide⟩
  | equals => exact ⟨_, _, rfl, by decide⟩
  | blockOpen => exact ⟨_, _, rfl, by decide⟩
  | blockClose => exact ⟨_, _, rfl, by decide⟩
  | str => exact ⟨_, _, rfl, by decide⟩
  | long => exact ⟨_, _, rfl, by decide⟩
  | longEnd => exact ⟨_, _, rfl, by decide⟩
  | bare hb => exact ⟨_, _, rfl, bare _ hb⟩
  | signedInf hs => rcases hs with ⟨rfl, _⟩ | ⟨rfl, _⟩ <;> exact ⟨_, _, rfl, by decide⟩
  | signedNan hs => rcases hs with ⟨rfl, _⟩ | ⟨rfl, _⟩ <;> exact ⟨_, _, rfl, by decide⟩
  | neg => exact ⟨_, _, rfl, by decide⟩
  | numBare hl _ _ hd =>
    rw [List.append_assoc]
    exact lead hl (fun _ c t e => by cases e; exact hd) _
  | pos _ hl _ hne =>
    have := lead hl (fun e => absurd (by rw [e]; rfl) hne) []
    rwa [List.append_nil] at this
  | float hl =>
    rw [List.append_assoc]
    exact lead hl (fun _ c t e => by cases e; unfold Digit; decide) _
  | date hl =>
    rw [List.append_assoc]
    exact lead hl (fun _ c t e => by cases e; unfold Digit; decide) _

theorem tNext_sound {c c' : Cur} {t : TTok} (h : tNext o c = .ok t c') :
    (∃ w s, c.txt = w ++ s ++ c'.txt ∧ TLayout w ∧ TSpells o s c'.txt t) ∨
    (t = .eof ∧ ∃ w, c.txt = w ++ c'.txt ∧ TLayoutEnd w ∧ TEnds c'.txt) := by
  simp only [tNext] at h
  split at h
  · cases h
  · rename_i d hd
    obtain ⟨d1, d2, d3⟩ := span_dec isWs c
    generalize c.span rcol isWs = r at *
    obtain ⟨w, h1, h2, h3⟩ := tComments_sound hd
    rcases tTok_sound h with ⟨s, g1, g2⟩ | ⟨rfl, rfl, g2⟩
    · left
      rcases h3 with h3 | ⟨h3, h4⟩
      · exact ⟨r.1 ++ w, s, by rw [d1, h1, g1]; simp, TLayout.blanks d2 h3, g2⟩
      · -- at the end there is no token
        exfalso
        have hch := TEnds.iff.1 h4
        simp only [tTok, hch, if_true] at h
        cases h
        have : s = [] := by
          have := congrArg List.length g1
          simp only [List.length_append] at this
          exact List.eq_nil_of_length_eq_zero (by omega)
        subst this
        obtain ⟨x, w, e, _⟩ := g2.head
        cases e
    · right
      refine ⟨rfl, r.1 ++ w, by rw [d1, h1]; simp, ?_, g2⟩
      rcases h3 with h3 | ⟨h3, _⟩
      · exact .inl (TLayout.blanks d2 h3)
      · rcases h3 with h3 | ⟨a, b, k1, k2, k3, rfl⟩
        · exact .inl (TLayout.blanks d2 h3)
        · exact .inr ⟨r.1 ++ a, b, TLayout.blanks d2 k1, k2, k3, by simp⟩

end NS
