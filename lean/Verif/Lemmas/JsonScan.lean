import Verif.Lemmas.LexBad
import Verif.Spec.JsonScan
import Verif.Spec.RonDoc
/-! The JSON lexer reads only lexemes: what it has read so far is a sequence of spellings. -/
namespace NS
variable {fl : FloatOps}

theorem span_spec (k p) (c : Cur) : c.txt = (c.span k p).1 ++ (c.span k p).2.txt ∧
    (∀ x ∈ (c.span k p).1, p x = true) ∧ ∀ x, (c.span k p).2.txt.head? = some x → p x = false := by
  rw [Cur.span_fst, Cur.span_txt]
  refine ⟨List.takeWhile_append_dropWhile.symm, ?_, ?_⟩
  · generalize c.txt = t
    induction t with
    | nil => simp
    | cons y t ih =>
      intro x hx
      rw [List.takeWhile_cons] at hx
      split at hx
      · rcases List.mem_cons.1 hx with rfl | hx
        · assumption
        · exact ih x hx
      · simp at hx
  · generalize c.txt = t
    induction t with
    | nil => simp
    | cons y t ih =>
      intro x hx
      rw [List.dropWhile_cons] at hx
      split at hx
      · exact ih x hx
      · simp at hx; subst hx; rename_i hp; simpa using hp

theorem isDig_digits {s : List Char} (h : ∀ c ∈ s, isDig c = true) : Digits s := by
  intro c hc
  simpa [isDig] using h c hc

theorem Cur.ch_pos {c : Cur} {x : Char} (h : c.ch = x) (hx : x ≠ '\x00') : c.txt = x :: c.txt.tail := by
  cases e : c.txt with
  | nil => rw [Cur.ch_nil e] at h; exact absurd h.symm hx
  | cons y t => rw [Cur.ch_cons e] at h; rw [h]; rfl

theorem isNumCont_not {c : Char} (h1 : isDig c = false) (h2 : c ≠ '.') (h3 : ¬ (c = 'e' ∨ c = 'E')) : c ∉ numCont := by
  rw [← isNumCont_iff, isNumCont]
  have : c ≠ 'e' ∧ c ≠ 'E' := by constructor <;> intro h <;> exact h3 (by simp [h])
  simp [h1, h2, this]

theorem Cur.ch_of_head {c : Cur} {x : Char} (h : c.txt.head? = some x) : c.ch = x := by
  cases e : c.txt with
  | nil => rw [e] at h; cases h
  | cons y t => rw [e] at h; simp at h; rw [Cur.ch_cons e, h]

theorem lexNum_sound' (hfl : FloatLaws fl) {k} {c c' : Cur} {t : Tok}
    (hx : c.ch = '.' ∨ c.ch = '-' ∨ c.ch = '+' ∨ isDig c.ch = true) (h : lexNum k fl c = (some t, c')) :
    ∃ s m, c.txt = s ++ c'.txt ∧ (NumLit fl s m ∨ c.ch = '.' ∧ DotNum fl s m) ∧ t = m.tok ∧
      ∀ x, c'.txt.head? = some x → isDig x = false ∧ (x = 'e' ∨ x = 'E' → 'e' ∈ s ∨ 'E' ∈ s) ∧
        (x = '.' → '.' ∈ s ∨ 'e' ∈ s ∨ 'E' ∈ s) := by
  unfold lexNum at h
  -- the sign
  obtain ⟨a, ha, hsg, hat⟩ : ∃ a : List Char × Cur, (if c.ch = '-' ∨ c.ch = '+' then ([c.ch], c.next k) else ([], c)) = a ∧
      (a.1 = [] ∧ a.2 = c ∧ (isDig a.2.ch = true ∨ a.2.ch = '.') ∨ a.1 = ['-'] ∨ a.1 = ['+']) ∧ c.txt = a.1 ++ a.2.txt := by
    refine ⟨_, rfl, ?_, ?_⟩
    · split
      · rename_i h1
        rcases h1 with h1 | h1 <;> simp [h1]
      · rename_i h1
        refine .inl ⟨rfl, rfl, ?_⟩
        rcases hx with hx | hx | hx | hx
        · exact .inr hx
        · exact absurd (.inl hx) h1
        · exact absurd (.inr hx) h1
        · exact .inl hx
    · split
      · rename_i h1
        have : c.ch ≠ '\x00' := by rcases h1 with h1 | h1 <;> rw [h1] <;> decide
        simpa using Cur.ch_pos rfl this
      · simp
  simp only [ha] at h
  obtain ⟨b1, b2, b3⟩ := span_spec k isDig a.2
  generalize hb : a.2.span k isDig = b at *
  -- the fraction
  obtain ⟨d, hd, hfr, hdt, hd0⟩ : ∃ d : List Char × Cur, (if b.2.ch = '.' then
      ('.' :: ((b.2.next k).span k isDig).1, ((b.2.next k).span k isDig).2) else ([], b.2)) = d ∧
      (d.1 = [] ∧ d.2 = b.2 ∧ b.2.ch ≠ '.' ∨ ∃ f, d.1 = '.' :: f ∧ Digits f) ∧ b.2.txt = d.1 ++ d.2.txt ∧
      (∀ x, d.2.txt.head? = some x → isDig x = false) := by
    obtain ⟨q1, q2, q3⟩ := span_spec k isDig (b.2.next k)
    refine ⟨_, rfl, ?_⟩
    by_cases h1 : b.2.ch = '.'
    · simp only [if_pos h1]
      refine ⟨.inr ⟨_, rfl, isDig_digits q2⟩, ?_, q3⟩
      have h2 := Cur.ch_pos h1 (by decide)
      rw [Cur.next_txt] at q1
      rw [h2, List.cons_append, ← q1]
    · simp only [if_neg h1]
      exact ⟨.inl ⟨trivial, trivial, h1⟩, rfl, b3⟩
  simp only [hb, hd] at h
  -- the exponent
  obtain ⟨e, he, hex, het, he0⟩ : ∃ e : List Char × Cur, (if d.2.ch = 'e' ∨ d.2.ch = 'E' then
      (d.2.ch :: ((if (d.2.next k).ch = '-' then (['-'], (d.2.next k).next k) else ([], d.2.next k) : List Char × Cur).1 ++
        ((if (d.2.next k).ch = '-' then (['-'], (d.2.next k).next k) else ([], d.2.next k) : List Char × Cur).2.span k isDig).1),
        ((if (d.2.next k).ch = '-' then (['-'], (d.2.next k).next k) else ([], d.2.next k) : List Char × Cur).2.span k isDig).2)
      else ([], d.2)) = e ∧
      (e.1 = [] ∧ e.2 = d.2 ∧ ¬ (d.2.ch = 'e' ∨ d.2.ch = 'E') ∨ ∃ x m y, e.1 = x :: (m ++ y) ∧ (x = 'e' ∨ x = 'E') ∧
        (m = [] ∨ m = ['-']) ∧ Digits y) ∧ d.2.txt = e.1 ++ e.2.txt ∧ (∀ x, e.2.txt.head? = some x → isDig x = false) := by
    obtain ⟨m, hm, hm1, hm2⟩ : ∃ m : List Char × Cur,
        (if (d.2.next k).ch = '-' then (['-'], (d.2.next k).next k) else ([], d.2.next k)) = m ∧
        (m.1 = [] ∨ m.1 = ['-']) ∧ d.2.txt.tail = m.1 ++ m.2.txt := by
      refine ⟨_, rfl, ?_⟩
      by_cases h1 : (d.2.next k).ch = '-'
      · simp only [if_pos h1]
        refine ⟨.inr trivial, ?_⟩
        have h2 := Cur.ch_pos h1 (by decide)
        rw [Cur.next_txt] at h2
        rw [h2]; simp
      · simp [if_neg h1]
    obtain ⟨q1, q2, q3⟩ := span_spec k isDig m.2
    refine ⟨_, rfl, ?_⟩
    rw [hm]
    by_cases h1 : d.2.ch = 'e' ∨ d.2.ch = 'E'
    · simp only [if_pos h1]
      refine ⟨.inr ⟨_, _, _, rfl, h1, hm1, isDig_digits q2⟩, ?_, q3⟩
      have : d.2.ch ≠ '\x00' := by rcases h1 with h1 | h1 <;> rw [h1] <;> decide
      have h2 := Cur.ch_pos rfl this
      rw [h2, hm2, q1]; simp
    · simp only [if_neg h1]
      exact ⟨.inl ⟨trivial, trivial, h1⟩, rfl, hd0⟩
  simp only [he] at h
  have htxt : c.txt = (a.1 ++ b.1 ++ d.1 ++ e.1) ++ e.2.txt := by rw [hat, b1, hdt, het]; simp
  have hsg' : a.1 = [] ∨ a.1 = ['-'] ∨ a.1 = ['+'] := hsg.imp (·.1) id
  have hb0 : a.1 = [] → b.1 = [] → c.ch = '.' ∧ ∃ f, d.1 = '.' :: f ∧ Digits f := by
    intro h0 h2
    rcases hsg with ⟨_, hac, h1⟩ | h1 | h1
    · rw [h2, List.nil_append] at b1
      have hdot : a.2.ch = '.' := by
        rcases h1 with h1 | h1
        · have := b3 a.2.ch (by
            rw [← b1]
            cases e : a.2.txt with
            | nil => rw [Cur.ch_nil e] at h1; exact absurd h1 (by decide)
            | cons x r => rw [Cur.ch_cons e]; rfl)
          rw [h1] at this; cases this
        · exact h1
      refine ⟨by rw [← hac]; exact hdot, ?_⟩
      rcases hfr with ⟨_, _, hne⟩ | hf
      · refine absurd ?_ hne
        have := Cur.ch_pos hdot (by decide)
        exact Cur.ch_cons (b1 ▸ this)
      · exact hf
    · rw [h1] at h0; cases h0
    · rw [h1] at h0; cases h0
  by_cases hor : d.1 ≠ [] ∨ e.1 ≠ []
  · rw [if_pos hor] at h
    injection h with hp hc
    subst hc
    cases hpp : fl.parse64 (a.1 ++ b.1 ++ d.1 ++ e.1) with
    | none => rw [hpp] at hp; cases hp
    | some x =>
      rw [hpp] at hp
      injection hp with hp
      refine ⟨a.1 ++ b.1 ++ d.1 ++ e.1, .float x, htxt, ?_, hp.symm, ?_⟩
      · have hexp : e.1 = [] ∨ ∃ x m y, e.1 = x :: (m ++ y) ∧ (x = 'e' ∨ x = 'E') ∧ (m = [] ∨ m = ['-']) ∧ y ≠ [] ∧ Digits y := by
          rcases hex with h1 | ⟨x1, m, y, h1, h2, h3, h4⟩
          · exact .inl h1.1
          · refine .inr ⟨x1, m, y, h1, h2, h3, ?_, h4⟩
            intro hy
            subst hy
            rw [h1, List.append_nil, hfl.parse_bare_exp _ x1 m h2 h3] at hpp
            cases hpp
        by_cases h0 : a.1 ++ b.1 = []
        · have h00 := List.append_eq_nil_iff.1 h0
          obtain ⟨hc, f, hf, hfd⟩ := hb0 h00.1 h00.2
          refine .inr ⟨hc, f, e.1, x, ?_, hfd, hexp, hpp, rfl⟩
          rw [h0, hf]; simp
        · exact .inl (.float hsg' h0 (isDig_digits b2) (hfr.imp (·.1) id) hexp hor hpp)
      · intro y hy
        refine ⟨he0 y hy, fun hye => ?_, fun hyd => ?_⟩
        · rcases hex with ⟨_, h2, h3⟩ | ⟨x1, m, z, h1, h2, _, _⟩
          · rw [h2] at hy
            rw [Cur.ch_of_head hy] at h3
            exact absurd hye h3
          · rw [h1]
            rcases h2 with rfl | rfl <;> simp
        · rcases hor with h | h
          · rcases hfr with ⟨h1, _⟩ | ⟨f, h1, _⟩
            · exact absurd h1 h
            · rw [h1]; simp
          · rcases hex with ⟨h1, _⟩ | ⟨x1, m, z, h1, h2, _, _⟩
            · exact absurd h1 h
            · rw [h1]
              rcases h2 with rfl | rfl <;> simp
  · rw [if_neg hor] at h
    have hd1 : d.1 = [] := by rcases hfr with h1 | ⟨f, h1, _⟩; exact h1.1; exact absurd (.inl (by rw [h1]; simp)) hor
    have he1 : e.1 = [] := by rcases hex with h1 | ⟨_, _, _, h1, _⟩; exact h1.1; exact absurd (.inr (by rw [h1]; simp)) hor
    have hdb : d.2 = b.2 ∧ b.2.ch ≠ '.' := by rcases hfr with h1 | ⟨f, h1, _⟩; exact h1.2; rw [hd1] at h1; cases h1
    have hed : e.2 = d.2 ∧ ¬ (d.2.ch = 'e' ∨ d.2.ch = 'E') := by
      rcases hex with h1 | ⟨_, _, _, h1, _⟩; exact h1.2; rw [he1] at h1; cases h1
    have hlong : ∀ x, e.2.txt.head? = some x → x ∉ numCont := by
      intro x hx'
      have h1 := he0 x hx'
      rw [hed.1] at hx'
      have h2 := Cur.ch_of_head hx'
      refine isNumCont_not h1 ?_ ?_
      · rw [← h2, hdb.1]; exact hdb.2
      · rw [← h2]; exact hed.2
    rw [hd1, he1, List.append_nil, List.append_nil] at htxt
    have hstop : ∀ (s : List Char) x, e.2.txt.head? = some x → isDig x = false ∧ (x = 'e' ∨ x = 'E' → 'e' ∈ s ∨ 'E' ∈ s) ∧
        (x = '.' → '.' ∈ s ∨ 'e' ∈ s ∨ 'E' ∈ s) := by
      intro s x hx'
      have h1 := hlong x hx'
      refine ⟨he0 x hx', fun h2 => absurd ?_ h1, fun h2 => absurd ?_ h1⟩
      · rcases h2 with rfl | rfl <;> decide
      · subst h2; decide
    have pu : ∀ {ds tk}, parseU64 ds = some tk → ds ≠ [] ∧ decimal ds ≤ u64Max ∧ tk = .u64 (decimal ds) := by
      intro ds tk h
      unfold parseU64 at h
      rw [digitsVal_decimal] at h
      split at h
      · cases h
      split at h
      · injection h with h; exact ⟨by assumption, by assumption, h.symm⟩
      · cases h
    have pi : ∀ {ds tk}, parseI64 ds = some tk → ds ≠ [] ∧ decimal ds ≤ 2 ^ 63 ∧ tk = .i64 (-(decimal ds : Int)) := by
      intro ds tk h
      unfold parseI64 at h
      rw [digitsVal_decimal] at h
      split at h
      · cases h
      split at h
      · injection h with h; exact ⟨by assumption, by assumption, h.symm⟩
      · cases h
    by_cases hm : a.1 = ['-']
    · rw [if_pos hm] at h
      injection h with hp hc
      subst hc
      obtain ⟨p1, p2, p3⟩ := pi hp
      rw [hm] at htxt
      exact ⟨'-' :: b.1, .neg (-(decimal b.1 : Int)), htxt, .inl (.neg p1 (isDig_digits b2) p2), p3, hstop _⟩
    · rw [if_neg hm] at h
      injection h with hp hc
      subst hc
      obtain ⟨p1, p2, p3⟩ := pu hp
      refine ⟨a.1 ++ b.1, .nat (decimal b.1), htxt, .inl (.nat ?_ p1 (isDig_digits b2) p2), p3, hstop _⟩
      rcases hsg' with h1 | h1 | h1
      · exact .inl h1
      · exact absurd h1 hm
      · exact .inr h1

theorem lexNum_sound (hfl : FloatLaws fl) {k} {c c' : Cur} {t : Tok} (hx : c.ch = '-' ∨ c.ch = '+' ∨ isDig c.ch = true)
    (h : lexNum k fl c = (some t, c')) :
    ∃ s m, c.txt = s ++ c'.txt ∧ NumLit fl s m ∧ t = m.tok ∧ ∀ x, c'.txt.head? = some x → JLongest (.num m) s x := by
  obtain ⟨s, m, h1, h2 | ⟨hd, _⟩, h3, h4⟩ := lexNum_sound' hfl (.inr hx) h
  · refine ⟨s, m, h1, h2, h3, fun x hx => ?_⟩
    obtain ⟨k1, k2, k3⟩ := h4 x hx
    refine ⟨?_, k2, k3⟩
    rintro ⟨k4, k5⟩
    simp [isDig, k4, k5] at k1
  · rw [hd] at hx
    exact absurd hx (by decide)

theorem hexUnescape_sound {k} {c c' : Cur} {ch : Char} (hu : c.ch = 'u') (h : hexUnescape k c = (some ch, c')) :
    (∃ hs v, c.txt = 'u' :: (hs ++ c'.txt) ∧ Hex4 hs v ∧ ch.toNat = v) ∨
    ∃ hs l hi lo, c.txt = 'u' :: (hs ++ '\\' :: 'u' :: (l ++ c'.txt)) ∧ Hex4 hs hi ∧ Hex4 l lo ∧ 0xD800 ≤ hi ∧ hi < 0xDC00 ∧
      0xDC00 ≤ lo ∧ lo < 0xE000 ∧ ch.toNat = 0x10000 + (hi - 0xD800) * 0x400 + (lo - 0xDC00) := by
  have ofU : ∀ {n : Nat} {ch}, charOfU32 n = some ch → ch.toNat = n := by
    intro n ch h
    unfold charOfU32 at h
    split at h
    · injection h with h
      rename_i hv
      rw [← h]
      unfold Char.ofNat
      rw [dif_pos hv]; rfl
    · cases h
  have h0 := Cur.ch_pos hu (by decide)
  unfold hexUnescape at h
  cases h1 : xdigits k 4 0 (c.next k) with
  | mk o c1 =>
    rw [h1] at h
    cases o with
    | none => cases h
    | some v =>
      obtain ⟨hs, e1, q1⟩ := xdigits_some h1
      rw [Cur.next_txt] at e1
      simp only at h
      cases h2 : charOfU32 v with
      | some ch1 =>
        rw [h2] at h
        injection h with ha hb
        injection ha with ha
        subst ha hb
        exact .inl ⟨hs, v, by rw [h0, e1], q1, ofU h2⟩
      | none =>
        rw [h2] at h
        simp only at h
        split at h
        · rename_i hc
          split at h
          · rename_i hc2
            have e2 := Cur.ch_pos hc.2 (by decide)
            have e3 := Cur.ch_pos hc2 (by decide)
            cases h3 : xdigits k 4 0 ((c1.next k).next k) with
            | mk o2 c2 =>
              rw [h3] at h
              cases o2 with
              | none => cases h
              | some w =>
                obtain ⟨l, e4, q2⟩ := xdigits_some h3
                simp only at h
                split at h
                · rename_i hw
                  injection h with ha hb
                  subst hb
                  have := ofU ha
                  rw [shift_or_pair (by omega)] at this
                  refine .inr ⟨hs, l, v, w, ?_, q1, q2, hc.1.1, hc.1.2, hw.1, hw.2, by omega⟩
                  rw [Cur.next_txt] at e3
                  rw [Cur.next_txt, Cur.next_txt] at e4
                  rw [h0, e1, e2, e3, e4]
                · cases h
          · cases h
        · cases h

theorem lexStr_sound {k} (n : Nat) : ∀ {c c' : Cur} {buf out : List Char}, lexStr k n c buf = .done c' out →
    ∃ b s, c.txt = b ++ '"' :: c'.txt ∧ StrLit b s ∧ out = buf ++ s := by
  induction n with
  | zero => intro c c' buf out h; cases h
  | succ n ih =>
    intro c c' buf out h
    unfold lexStr at h
    split at h
    · rename_i h1
      injection h with ha hb
      subst ha hb
      exact ⟨[], [], by simpa using Cur.ch_pos h1 (by decide), .nil, by simp⟩
    rename_i hq
    split at h
    · rename_i h1
      have e0 := Cur.ch_pos h1 (by decide)
      simp only at h
      split at h
      · cases h
      rename_i hz
      have e1 := Cur.ch_pos (c := c.next k) rfl hz
      split at h
      · rename_i hu
        cases h2 : hexUnescape k (c.next k) with
        | mk o c2 =>
          rw [h2] at h
          cases o with
          | none => cases h
          | some ch =>
            obtain ⟨b, s, p1, p2, p3⟩ := ih h
            rcases hexUnescape_sound hu h2 with ⟨hs, v, q1, q2, q3⟩ | ⟨hs, l, hi, lo, q1, q2, q3, q4⟩
            · refine ⟨'\\' :: 'u' :: (hs ++ b), ch :: s, ?_, .unicode q2 q3 p2, by simp [p3]⟩
              rw [Cur.next_txt] at q1
              rw [e0, q1, p1]; simp
            · refine ⟨'\\' :: 'u' :: (hs ++ '\\' :: 'u' :: (l ++ b)), ch :: s, ?_,
                .surrogates q2 q3 q4.1 q4.2.1 q4.2.2.1 q4.2.2.2.1 q4.2.2.2.2 p2, by simp [p3]⟩
              rw [Cur.next_txt] at q1
              rw [e0, q1, p1]; simp
      · rename_i hu
        obtain ⟨b, s, p1, p2, p3⟩ := ih h
        refine ⟨'\\' :: (c.next k).ch :: b, escMeaning (c.next k).ch :: s, ?_, .esc hu hz p2, ?_⟩
        · rw [Cur.next_txt, Cur.next_txt] at p1
          rw [Cur.next_txt] at e1
          rw [e0, e1, p1]; simp
        · rw [p3, escChar_eq]; simp
    · rename_i h1
      split at h
      · cases h
      · rename_i hz
        obtain ⟨b, s, p1, p2, p3⟩ := ih h
        refine ⟨c.ch :: b, c.ch :: s, ?_, .plain hq h1 hz p2, by simp [p3]⟩
        rw [Cur.next_txt] at p1
        have := Cur.ch_pos (c := c) rfl hz
        rw [this, p1]; simp

/-! ## Layout -/

theorem jBlock_sound (t : List Char) : ∀ (x : Char) (l c : Nat) (c' : Cur), jBlock (x :: t) x l c = (true, c') →
    (x = '*' ∧ t = '/' :: c'.txt) ∨ ∃ b, t = b ++ '*' :: '/' :: c'.txt ∧ ¬ ['*', '/'] <:+: x :: b ∧ '\x00' ∉ b := by
  induction t with
  | nil => intro x l c c' h; simp [jBlock] at h
  | cons y t ih =>
    intro x l c c' h
    simp only [jBlock] at h
    split at h
    · cases h
    rename_i hy
    split at h
    · rename_i hxy
      injection h with _ h
      subst h
      exact .inl ⟨hxy.1, by simp [hxy.2]⟩
    · rename_i hxy
      rcases ih y _ _ c' h with ⟨h1, h2⟩ | ⟨b, h1, h2, h3⟩
      · subst h1
        refine .inr ⟨[], by rw [h2]; rfl, ?_, by simp⟩
        rintro ⟨p, q, e⟩
        have := congrArg List.length e
        simp at this
        omega
      · refine .inr ⟨y :: b, by rw [h1]; rfl, ?_, ?_⟩
        · rintro ⟨p, q, e⟩
          cases p with
          | nil =>
            simp at e
            exact hxy ⟨e.1.symm, e.2.1.symm⟩
          | cons z p =>
            simp at e
            exact h2 ⟨p, q, by simp [e.2]⟩
        · intro hm
          rcases List.mem_cons.1 hm with hm | hm
          · exact hy hm.symm
          · exact h3 hm

theorem JLayout.ws {b : List Char} (hb : ∀ x ∈ b, isWs x = true) {w : List Char} (h : JLayout w) : JLayout (b ++ w) := by
  induction b with
  | nil => exact h
  | cons x b ih =>
    refine .space ?_ (ih fun y hy => hb y (by simp [hy]))
    have := hb x (by simp)
    simp only [isWs, Bool.or_eq_true, beq_iff_eq] at this
    rcases this with ((h | h) | h) | h <;> simp [h]

theorem jSkip_sound (n : Nat) : ∀ {c c' : Cur}, jSkip n c = .at c' →
    ∃ w e, c.txt = w ++ e ++ c'.txt ∧ JLayout w ∧
      (e = [] ∨ (∃ b, e = '/' :: '/' :: b ∧ '\n' ∉ b ∧ '\x00' ∉ b) ∧ c'.ch = '\x00') := by
  induction n with
  | zero => intro c c' h; cases h
  | succ n ih =>
    intro c c' h
    unfold jSkip at h
    obtain ⟨q1, q2, _⟩ := span_spec jcol isWs c
    generalize c.span jcol isWs = r at *
    simp only at h
    have wrap : ∀ {u : List Char} {c2 : Cur}, r.2.txt = u ++ c2.txt → (∀ w, JLayout w → JLayout (u ++ w)) →
        jSkip n c2 = .at c' → ∃ w e, c.txt = w ++ e ++ c'.txt ∧ JLayout w ∧
          (e = [] ∨ (∃ b, e = '/' :: '/' :: b ∧ '\n' ∉ b ∧ '\x00' ∉ b) ∧ c'.ch = '\x00') := by
      intro u c2 hu hl h
      obtain ⟨w, e, p1, p2, p3⟩ := ih h
      refine ⟨r.1 ++ (u ++ w), e, ?_, JLayout.ws q2 (hl w p2), p3⟩
      rw [q1, hu, p1]; simp
    split at h
    · rename_i h1
      have e0 := Cur.ch_pos h1 (by decide)
      split at h
      · rename_i h2
        have e1 := Cur.ch_pos h2 (by decide)
        rw [Cur.next_txt] at e1
        obtain ⟨s1, s2, s3⟩ := span_spec jcol (fun x => x ≠ '\n' && x ≠ '\x00') (r.2.next jcol)
        have hf := Cur.span_step (k := jcol) (p := fun x => x ≠ '\n' && x ≠ '\x00') (c := r.2.next jcol)
          (x := '/') (t := r.2.txt.tail.tail) (by rw [Cur.next_txt]; exact e1) (by decide)
        generalize hsp : (r.2.next jcol).span jcol (fun x => x ≠ '\n' && x ≠ '\x00') = sp at *
        have hb : ∃ b, sp.1 = '/' :: b := by
          cases hsp1 : sp.1 with
          | nil =>
            have h3 : (r.2.next jcol).txt.takeWhile (fun x => x ≠ '\n' && x ≠ '\x00') = [] := by
              rw [← Cur.span_fst (k := jcol), hsp, hsp1]
            rw [Cur.next_txt, e1] at h3
            simp [List.takeWhile] at h3
          | cons y b =>
            rw [Cur.next_txt, e1, hsp1] at s1
            simp at s1
            exact ⟨b, by rw [← s1.1]⟩
        obtain ⟨b, hb⟩ := hb
        have hn : '\n' ∉ b := by
          intro hm
          have := s2 '\n' (by rw [hb]; simp [hm])
          simp at this
        have hz : '\x00' ∉ b := by
          intro hm
          have := s2 '\x00' (by rw [hb]; simp [hm])
          simp at this
        rw [Cur.next_txt, hb] at s1
        cases ht : sp.2.txt with
        | nil =>
          -- the comment ends the text
          obtain ⟨w, e, p1, p2, p3⟩ := ih h
          rw [ht] at p1
          have : w = [] ∧ e = [] ∧ c'.txt = [] := by
            have := List.append_eq_nil_iff.1 p1.symm
            exact ⟨(List.append_eq_nil_iff.1 this.1).1, (List.append_eq_nil_iff.1 this.1).2, this.2⟩
          refine ⟨r.1, '/' :: '/' :: b, ?_, ?_, .inr ⟨⟨b, rfl, hn, hz⟩, Cur.ch_nil this.2.2⟩⟩
          · rw [q1, e0, s1, ht, this.2.2]; simp
          · have := JLayout.ws q2 .nil
            simpa using this
        | cons y rest =>
          have hy := s3 y (by rw [ht]; rfl)
          simp only [ne_eq, decide_not, Bool.and_eq_false_iff, Bool.not_eq_eq_eq_not, Bool.not_false,
            decide_eq_true_eq] at hy
          rcases hy with rfl | rfl
          · -- newline: read it as part of the comment
            obtain ⟨w, e, p1, p2, p3⟩ := ih h
            rw [ht] at p1
            cases p2 with
            | nil =>
              rcases p3 with rfl | ⟨⟨b', rfl, _⟩, _⟩
              · -- the skip stopped at the newline: impossible
                exfalso
                have hc : c'.txt = '\n' :: rest := by simpa using p1.symm
                have : ∀ m (c1 c2 : Cur), jSkip m c1 = .at c2 → c2.ch ≠ '\n' := by
                  intro m
                  induction m with
                  | zero => intro c1 c2 h; cases h
                  | succ m ihm =>
                    intro c1 c2 h
                    unfold jSkip at h
                    obtain ⟨_, _, g3⟩ := span_spec jcol isWs c1
                    generalize c1.span jcol isWs = r1 at *
                    simp only at h
                    split at h
                    · split at h
                      · exact ihm _ _ h
                      · split at h
                        · split at h
                          · exact ihm _ _ h
                          · cases h
                        · cases h
                    · injection h with h
                      subst h
                      intro hc
                      have g4 := Cur.ch_pos hc (by decide)
                      have := g3 '\n' (by rw [g4]; rfl)
                      exact absurd this (by decide)
                exact this _ _ _ h (Cur.ch_cons hc)
              · simp at p1
            | @space x w hx' hw' =>
              simp at p1
              obtain ⟨rfl, p1⟩ := p1
              refine ⟨r.1 ++ ('/' :: '/' :: (b ++ '\n' :: w)), e, ?_, JLayout.ws q2 (.line hn hz hw'), p3⟩
              rw [q1, e0, s1, ht, p1]; simp
            | line => simp at p1
            | block => simp at p1
            | short => simp at p1
          · -- NUL: the end
            have hc : sp.2.ch = '\x00' := Cur.ch_cons ht
            have : c' = sp.2 := by
              cases n with
              | zero => cases h
              | succ n =>
                unfold jSkip at h
                have hs : (sp.2.span jcol isWs).2 = sp.2 := by
                  rw [Cur.span_stop]; intro y r e; rw [Cur.ch_cons e] at hc; subst hc; decide
                rw [hs] at h
                simp only at h
                rw [if_neg (by rw [hc]; decide)] at h
                injection h with h
                exact h.symm
            subst this
            refine ⟨r.1, '/' :: '/' :: b, ?_, ?_, .inr ⟨⟨b, rfl, hn, hz⟩, hc⟩⟩
            · rw [q1, e0, s1]; simp
            · have := JLayout.ws q2 .nil
              simpa using this
      · split at h
        · rename_i h2
          have e1 := Cur.ch_pos h2 (by decide)
          rw [Cur.next_txt] at e1
          cases hb : jBlock (r.2.next jcol).txt (r.2.next jcol).ch (r.2.next jcol).line (r.2.next jcol).col with
          | mk ok c2 =>
            rw [hb] at h
            cases ok with
            | false => cases h
            | true =>
              rw [h2, Cur.next_txt, e1] at hb
              rcases jBlock_sound _ _ _ _ _ hb with ⟨_, h3⟩ | ⟨b, h3, h4, h5⟩
              · refine wrap (u := ['/', '*', '/']) ?_ (fun w hw => .short hw) h
                rw [e0, e1, h3]; rfl
              · refine wrap (u := '/' :: '*' :: (b ++ ['*', '/'])) ?_ (fun w hw => ?_) h
                · rw [e0, e1, h3]; simp
                · have := JLayout.block h4 h5 hw
                  simpa using this
        · cases h
    · injection h with h
      subst h
      refine ⟨r.1, [], by simpa using q1, ?_, .inl rfl⟩
      have := JLayout.ws q2 .nil
      simpa using this

/-- `txt` begins with the lexeme `l`, and `rest` remains; or `l` is the end. -/
def JLex (fl : FloatOps) (txt : List Char) (l : Lexeme) (rest : List Char) : Prop :=
  (l = .eof ∧ JScanEnd txt ∧ (rest = [] ∨ rest.head? = some '\x00')) ∨ JScan fl [l] txt rest

/-- Whatever the lexer returns has been read as a lexeme, or is the end of the text. -/
theorem jNext_sound' (hfl : FloatLaws fl) {s s' : PSt} (h : jNext fl s = .ok () s') :
    ∃ l, JLex fl s.cur.txt l s'.cur.txt ∧ s'.tok = jtok l ∧ s'.strbuf = l.sb.getD s.strbuf ∧
      s'.identbuf = l.ib.getD s.identbuf := by
  unfold jNext at h
  cases hk : jSkip (s.cur.txt.length + 1) s.cur with
  | oof => rw [hk] at h; cases h
  | bad c w => rw [hk] at h; cases h
  | «at» c =>
    rw [hk] at h
    simp only at h
    obtain ⟨w, e, p1, p2, p3⟩ := jSkip_sound _ hk
    have one : ∀ {l sp}, c.ch ≠ '\x00' → JSpell fl l sp → c.txt = sp ++ s'.cur.txt →
        (∀ x, s'.cur.txt.head? = some x → JLongest l sp x) → JLex fl s.cur.txt l s'.cur.txt := by
      intro l sp h0 h1 h2 h3
      rcases p3 with rfl | ⟨_, p3⟩
      · refine .inr ?_
        rw [p1, h2, List.append_nil, ← List.append_assoc]
        exact .cons p2 h1 h3 .nil
      · exact absurd p3 h0
    unfold jTok at h
    simp only at h
    split at h
    · rename_i h0
      injection h with _ h
      subst h
      have hend : c.txt = [] ∨ c.txt.head? = some '\x00' := by
        cases ht : c.txt with
        | nil => exact .inl rfl
        | cons x r => rw [Cur.ch_cons ht] at h0; subst h0; exact .inr rfl
      exact ⟨.eof, .inl ⟨rfl, ⟨w, e, c.txt, p1, p2, p3.imp id (·.1), hend⟩, hend⟩, rfl, rfl, rfl⟩
    · rename_i h0
      have e0 := Cur.ch_pos (c := c) rfl h0
      split at h
      · rename_i t ht
        injection h with _ h
        subst h
        have pun : ∀ {l}, JSpell fl l [c.ch] → (∀ sp x, JLongest l sp x) → t = jtok l → l.sb = none → l.ib = none → _ :=
          fun {l} g1 g2 g3 g4 g5 => (⟨l, one (l := l) h0 g1 (by simpa using e0) (fun x _ => g2 _ x), g3, by rw [g4]; rfl, by rw [g5]; rfl⟩ :
            ∃ l, JLex fl s.cur.txt l (c.next jcol).txt ∧ t = jtok l ∧ s.strbuf = l.sb.getD s.strbuf ∧ s.identbuf = l.ib.getD s.identbuf)
        unfold jPunct at ht
        split at ht
        · rename_i hc; injection ht with ht; subst ht; exact pun (l := .punct .colon) (by rw [hc]; exact .colon) (fun _ _ => trivial) rfl rfl rfl
        split at ht
        · rename_i hc; injection ht with ht; subst ht; exact pun (l := .punct .comma) (by rw [hc]; exact .comma) (fun _ _ => trivial) rfl rfl rfl
        split at ht
        · rename_i hc; injection ht with ht; subst ht; exact pun (l := .punct .blockOpen) (by rw [hc]; exact .blockOpen) (fun _ _ => trivial) rfl rfl rfl
        split at ht
        · rename_i hc; injection ht with ht; subst ht; exact pun (l := .punct .blockClose) (by rw [hc]; exact .blockClose) (fun _ _ => trivial) rfl rfl rfl
        split at ht
        · rename_i hc; injection ht with ht; subst ht; exact pun (l := .punct .curlyOpen) (by rw [hc]; exact .curlyOpen) (fun _ _ => trivial) rfl rfl rfl
        split at ht
        · rename_i hc; injection ht with ht; subst ht; exact pun (l := .punct .curlyClose) (by rw [hc]; exact .curlyClose) (fun _ _ => trivial) rfl rfl rfl
        · cases ht
      · split at h
        · rename_i hx
          cases hn : lexNum jcol fl c with
          | mk o c1 =>
            rw [hn] at h
            cases o with
            | none => cases h
            | some t =>
              injection h with _ h
              subst h
              obtain ⟨sp, m, g1, g2, g3, g4⟩ := lexNum_sound hfl hx hn
              exact ⟨.num m, one (l := .num m) h0 (.num g2) g1 g4, g3, rfl, rfl⟩
        · split at h
          · rename_i hid
            obtain ⟨g1, g2, g3⟩ := span_spec jcol isIdStart c
            generalize c.span jcol isIdStart = r at *
            have hl : ∀ x, r.2.txt.head? = some x → ¬ (('a' ≤ x ∧ x ≤ 'z') ∨ ('A' ≤ x ∧ x ≤ 'Z') ∨ x = '_') := by
              intro x hx
              rw [← isIdStart_iff, g3 x hx]; simp
            split at h
            · rename_i hw
              injection h with _ h
              subst h
              exact ⟨.word ['t', 'r', 'u', 'e'], one h0 .true (by rw [g1, hw]) hl, rfl, rfl, hw⟩
            split at h
            · rename_i hw
              injection h with _ h
              subst h
              exact ⟨.word ['f', 'a', 'l', 's', 'e'], one h0 .false (by rw [g1, hw]) hl, rfl, rfl, hw⟩
            split at h
            · rename_i hw
              injection h with _ h
              subst h
              exact ⟨.word ['n', 'u', 'l', 'l'], one h0 .null (by rw [g1, hw]) hl, rfl, rfl, hw⟩
            · cases h
          · split at h
            · rename_i hq
              cases hn : lexStr jcol (c.txt.length + 1) (c.next jcol) [] with
              | oof => rw [hn] at h; cases h
              | bad c1 b => rw [hn] at h; cases h
              | done c1 b =>
                rw [hn] at h
                injection h with _ h
                subst h
                obtain ⟨b1, s1, g1, g2, g3⟩ := lexStr_sound _ hn
                refine ⟨.str s1, one (l := .str s1) h0 (.str g2) ?_ (fun _ _ => trivial), rfl, by simpa [Lexeme.sb] using g3, rfl⟩
                rw [Cur.next_txt] at g1
                rw [e0, g1, hq]; simp
            · cases h

theorem jtok_eof {l s} (h : JSpell fl l s) : jtok l ≠ .eof := by
  cases h with
  | @num t => cases t <;> simp [jtok, Num.tok]
  | _ => simp [jtok]

/-- Whatever the lexer returns has been read as a lexeme, or is the end of the text. -/
theorem jNext_sound (hfl : FloatLaws fl) {s s' : PSt} (h : jNext fl s = .ok () s') :
    (∃ l, JScan fl [l] s.cur.txt s'.cur.txt ∧ s'.tok = jtok l ∧ s'.tok ≠ .eof) ∨ (s'.tok = .eof ∧ JScanEnd s.cur.txt) := by
  obtain ⟨l, ⟨rfl, h1, _⟩ | h1, h2, _⟩ := jNext_sound' hfl h
  · exact .inr ⟨h2, h1⟩
  · refine .inl ⟨l, h1, h2, ?_⟩
    rw [h2]
    generalize s.cur.txt = a at h1
    generalize s'.cur.txt = b at h1
    cases h1 with
    | cons _ h _ _ => exact jtok_eof h

theorem JScan.append {ls ms a b c} (h : JScan fl ls a b) (h' : JScan fl ms b c) : JScan fl (ls ++ ms) a c := by
  induction h with
  | nil => exact h'
  | cons h1 h2 h3 _ ih => exact .cons h1 h2 h3 (ih h')

end NS
