import Verif.Lemmas.RonSim
import Verif.Lemmas.RonLex
import Verif.Lemmas.JsonLayout
import Verif.Spec.RonLayout
/-! Layout is irrelevant in RON; texts on which the first token fails. -/
namespace NS
variable {env : Env} {fl : FloatOps}

namespace Ron

/-- Layout before a token is skipped, whatever follows. -/
theorem skip {w} (h : Layout w) {txt : List Char} {st : PSt} (hst : st.cur.txt = w ++ txt) :
    ∃ c', c'.txt = txt ∧ rNext fl st = rNext fl { st with cur := c' } := by
  induction h generalizing st with
  | nil => exact ⟨st.cur, hst, rfl⟩
  | @space c w hc _ ih =>
    rw [next_ws (t := w ++ txt) hst (by rcases hc with rfl | rfl | rfl | rfl <;> decide)]
    exact ih (st := { st with cur := st.cur.next rcol }) (by simp [hst])
  | @line b w hb h0 _ ih =>
    obtain ⟨c', e1, e2⟩ := next_line (fl := fl) (st := st) (b := b) (t := '\n' :: (w ++ txt)) (by simpa using hst) hb h0
      (by simp)
    rw [e2]
    exact ih (st := { st with cur := c' }) e1
  | @block b w hb h0 _ ih =>
    have h1 : (st.cur.next rcol).txt = '*' :: (b ++ '*' :: '/' :: (w ++ txt)) := by simp [hst]
    have hch : (st.cur.next rcol).ch = '*' := Cur.ch_cons h1
    have e2 : (rBlock (st.cur.next rcol).txt false (st.cur.next rcol).line (st.cur.next rcol).col).txt = w ++ txt := by
      rw [h1]
      have e1 : ('*' : Char) ≠ '/' := by decide
      have e3 : ('*' : Char) ≠ '\x00' := by decide
      simp only [rBlock, if_neg e3, e1, false_and, if_false]
      exact block_run b '*' (w ++ txt) _ _ hb h0
    have : rNext fl st = rNext fl { st with cur := rBlock (st.cur.next rcol).txt false (st.cur.next rcol).line (st.cur.next rcol).col } := by
      refine next_via ?_ ?_
      · rw [e2, hst]; simp; omega
      · intro n
        rw [skip_slash (by simpa using hst), hch, if_neg (by decide), if_pos rfl]
    rw [this]
    exact ih (st := { st with cur := _ }) e2

/-- If the first token cannot be read the whole text is rejected. -/
theorem rejects_first {t : Ty} {w txt : List Char} (h1 : Layout w)
    (h : ∀ st : PSt, st.cur.txt = txt → ∃ e s, rNext fl st = .err e s) :
    Rejects (fun n => deserializeRon env fl n t (w ++ txt)) := by
  refine ⟨0, fun n _ => ?_⟩
  obtain ⟨c', e1, e2⟩ := skip (fl := fl) h1 (st := initSt rcol (w ++ txt)) (txt := txt) (by simp [initSt])
  obtain ⟨e, s, h3⟩ := h { initSt rcol (w ++ txt) with cur := c' } e1
  refine ⟨e, s, ?_⟩
  show (do rNext fl; deRon env fl n t : PM Val) _ = _
  rw [M.bind_def, e2, h3]

/-- A number token that cannot be parsed. -/
theorem badNum_first {x : Char} {r : List Char} (hx : x = '-' ∨ x = '+' ∨ isDig x = true)
    (h : ∀ c : Cur, c.txt = x :: r → ∃ c', lexNum rcol fl c = (none, c')) :
    ∀ st : PSt, st.cur.txt = x :: r → ∃ e s, rNext fl st = .err e s := by
  intro st hst
  have hf := numHead_facts hx
  have hp : rPunct x = none ∧ x ≠ '\'' := by
    rcases hx with rfl | rfl | hx
    · decide
    · decide
    · rcases isDig_cases hx with e | e | e | e | e | e | e | e | e | e <;> subst e <;> decide
  rw [next_start hst hf.1 hf.2.1 hp.2]
  have := Cur.ch_cons hst
  obtain ⟨c', h'⟩ := h st.cur hst
  simp only [rTok, this, if_neg hf.2.2.1, hp.1, if_pos (show x = '.' ∨ x = '-' ∨ x = '+' ∨ isDig x = true from .inr hx), h']
  exact ⟨_, _, rfl⟩

/-- An integer literal outside the range of its token. -/
theorem badInt_first {sg ds tail : List Char} (hsg : sg = [] ∨ sg = ['-'] ∨ sg = ['+']) (hne : ds ≠ [])
    (hds : Digits ds) (ht : ∀ c, tail.head? = some c → c ∉ numCont)
    (hbad : if sg = ['-'] then 2 ^ 63 < decimal ds else u64Max < decimal ds) :
    ∀ st : PSt, st.cur.txt = sg ++ ds ++ tail → ∃ e s, rNext fl st = .err e s := by
  obtain ⟨x, r, e, hx⟩ : ∃ x r, sg ++ ds ++ tail = x :: r ∧ (x = '-' ∨ x = '+' ∨ isDig x = true) := by
    rcases hsg with rfl | rfl | rfl
    · obtain ⟨d, ds', rfl⟩ := List.exists_cons_of_ne_nil hne
      exact ⟨d, _, rfl, .inr (.inr (digits_isDig hds d (by simp)))⟩
    · exact ⟨_, _, rfl, .inl rfl⟩
    · exact ⟨_, _, rfl, .inr (.inl rfl)⟩
  rw [e]
  refine badNum_first hx fun c hc => ?_
  rw [← e] at hc
  obtain ⟨c', _, h'⟩ := lexNum_int (k := rcol) (fl := fl) hc hsg (digits_isDig hds) (fun _ => hne) (stopNum ht)
  refine ⟨c', h'.trans ?_⟩
  congr 1
  split at hbad
  · rename_i h
    rw [if_pos h, parseI64, if_neg hne, digitsVal_decimal, if_neg (by omega)]
  · rename_i h
    rw [if_neg h, parseU64, if_neg hne, digitsVal_decimal, if_neg (by omega)]

/-- A number alone in a text. -/
theorem num_text {w s w' : List Char} {t : Num} (h1 : Layout w) (hs : NumLit fl s t) (h2 : LayoutEnd w') :
    RText fl (.num t) (w ++ s ++ w') := by
  refine ⟨w', h2, ?_⟩
  simp only [RTree.lexemes]
  exact .cons h1 (.num hs) h2.stopNum .nil

end Ron

theorem rSameTokens_refl (t : List Char) : RSameTokens fl t t := ⟨[], t, t, .nil, .nil, .inl ⟨[], [], t, .nil, .nil, rfl, rfl⟩⟩

theorem rSameTokens_symm {t t' : List Char} (h : RSameTokens fl t t') : RSameTokens fl t' t := by
  obtain ⟨ls, a, b, h1, h2, h3⟩ := h
  refine ⟨ls, b, a, h2, h1, ?_⟩
  rcases h3 with ⟨w, w', r, hw, hw', e, e'⟩ | ⟨h, h'⟩
  · exact .inl ⟨w', w, r, hw', hw, e', e⟩
  · exact .inr ⟨h', h⟩

theorem rNext_layout (fl : FloatOps) : Rel (docSim (RSameTokens fl) True) (rNext fl) (rNext fl) := by
  rintro s s' ⟨⟨ls, t, t', h1, h2, h3⟩, ht, hs, hi⟩
  cases ls with
  | cons l ls =>
    generalize e1 : s.cur.txt = a at h1
    generalize e2 : s'.cur.txt = b at h2
    cases h1 with
    | cons _ _ _ h1' =>
    cases h2 with
    | cons _ _ _ h2' =>
    rename_i w sp r hw hsp hsep w' sp' r' hw' hsp' hsep'
    obtain ⟨c, hc, e⟩ := Ron.layout hw (hsp.tokAt hsep) s (by rw [e1, List.append_assoc])
    obtain ⟨c', hc', e'⟩ := Ron.layout hw' (hsp'.tokAt hsep') s' (by rw [e2, List.append_assoc])
    rw [e, e']
    refine ⟨rfl, ?_, rfl, ?_, ?_⟩
    · simp only [hc, hc']; exact ⟨ls, t, t', h1', h2', h3⟩
    · simp [hs]
    · simp [hi]
  | nil =>
    have e1 : s.cur.txt = t := by generalize s.cur.txt = a at h1; cases h1; rfl
    have e2 : s'.cur.txt = t' := by generalize s'.cur.txt = a at h2; cases h2; rfl
    rcases h3 with ⟨w, w', r, hw, hw', rfl, rfl⟩ | ⟨h, h'⟩
    · obtain ⟨c, hc, e⟩ := Ron.skip (fl := fl) hw e1
      obtain ⟨c', hc', e'⟩ := Ron.skip (fl := fl) hw' e2
      rw [e, e']
      refine docSim_same rSameTokens_refl (CurRel.rNext (C := sameTxt rcol) fl _ _ ⟨?_, ht, hs, hi⟩)
      simp [sameTxt, hc, hc']
    · obtain ⟨c, hc, e⟩ := Ron.layoutEnd (fl := fl) h s e1
      obtain ⟨c', hc', e'⟩ := Ron.layoutEnd (fl := fl) h' s' e2
      rw [e, e']
      refine ⟨rfl, ?_, rfl, by simp [hs], by simp [hi]⟩
      simp only [hc, hc']; exact rSameTokens_refl []

theorem deserializeRon_layout {txt txt' : List Char} (h : RSameTokens fl txt txt') {n m : Nat} (hnm : n ≤ m) (t : Ty) :
    OutRel (docSim (RSameTokens fl) True) (deserializeRon env fl n t txt) (deserializeRon env fl m t txt') := by
  refine Rel.bind (rNext_layout fl) (fun _ => deRon_rel env fl (rNext_layout fl) n m t hnm (.inl trivial)) _ _ ?_
  refine ⟨?_, rfl, rfl, rfl⟩
  rw [initSt_txt, initSt_txt]; exact h

theorem ron_layout {txt txt' : List Char} (h : RSameTokens fl txt txt') (t : Ty) :
    SameResult (fun n => deserializeRon env fl n t txt) (fun n => deserializeRon env fl n t txt') :=
  sameResult_of (fun _ _ hnm => deserializeRon_layout h hnm t)
    (fun _ _ hnm => deserializeRon_layout (rSameTokens_symm h) hnm t)

end NS
