import Verif.Lemmas.JsonLex
import Verif.Spec.TextErr
/-! Malformed string literals. -/
namespace NS

theorem hexVal_pos {c : Cur} {d : Nat} (h : hexVal c.ch = some d) :
    ∃ x t, c.txt = x :: t ∧ HexDig x d := by
  cases e : c.txt with
  | nil => rw [Cur.ch_nil e] at h; cases h
  | cons x t => rw [Cur.ch_cons e] at h; exact ⟨x, t, rfl, hexVal_iff.1 h⟩

theorem xdigits_some {k} {c c' : Cur} {v : Nat} (h : xdigits k 4 0 c = (some v, c')) :
    ∃ hs, c.txt = hs ++ c'.txt ∧ Hex4 hs v := by
  simp only [xdigits] at h
  cases h3 : hexVal c.ch with
  | none => simp [h3] at h
  | some v3 =>
  simp only [h3] at h
  obtain ⟨d3, t3, e3, q3⟩ := hexVal_pos h3
  cases h2 : hexVal (c.next k).ch with
  | none => simp [h2] at h
  | some v2 =>
  simp only [h2] at h
  obtain ⟨d2, t2, e2, q2⟩ := hexVal_pos h2
  cases h1 : hexVal ((c.next k).next k).ch with
  | none => simp [h1] at h
  | some v1 =>
  simp only [h1] at h
  obtain ⟨d1, t1, e1, q1⟩ := hexVal_pos h1
  cases h0 : hexVal (((c.next k).next k).next k).ch with
  | none => simp [h0] at h
  | some v0 =>
  simp only [h0] at h
  obtain ⟨d0, t0, e0, q0⟩ := hexVal_pos h0
  injection h with hv hc
  injection hv with hv
  refine ⟨[d3, d2, d1, d0], ?_, d3, d2, d1, d0, v3, v2, v1, v0, rfl, q3, q2, q1, q0, by omega⟩
  rw [← hc, Cur.next_txt, e0]
  rw [Cur.next_txt, e3] at e2
  rw [Cur.next_txt, Cur.next_txt, e3] at e1
  rw [Cur.next_txt, Cur.next_txt, Cur.next_txt, e3] at e0
  simp only [List.tail_cons] at e2 e1 e0
  subst e2
  simp only [List.tail_cons] at e1 e0
  subst e1
  simp only [List.tail_cons] at e0
  subst e0
  simp [e3]

theorem hex4_split {a b s t : List Char} {v w : Nat} (ha : Hex4 a v) (hb : Hex4 b w) (e : a ++ s = b ++ t) :
    v = w ∧ s = t := by
  obtain ⟨d3, d2, d1, d0, v3, v2, v1, v0, rfl, q3, q2, q1, q0, rfl⟩ := ha
  obtain ⟨f3, f2, f1, f0, w3, w2, w1, w0, rfl, p3, p2, p1, p0, rfl⟩ := hb
  simp only [List.cons_append, List.nil_append, List.cons.injEq] at e
  obtain ⟨rfl, rfl, rfl, rfl, rfl⟩ := e
  have key : ∀ {d v w}, HexDig d v → HexDig d w → v = w := by
    intro d v w h h'
    have := h.hexVal.symm.trans h'.hexVal
    simpa using this
  rw [key q3 p3, key q2 p2, key q1 p1, key q0 p0]
  exact ⟨rfl, rfl⟩

/-- A malformed escape is not decoded. -/
theorem hexUnescape_bad {k} {c : Cur} {rest : List Char} (h : c.txt = 'u' :: rest) (hb : BadUnicode rest) :
    ∃ c', hexUnescape k c = (none, c') := by
  have ht : (c.next k).txt = rest := by rw [Cur.next_txt, h]; rfl
  unfold hexUnescape
  generalize hx : xdigits k 4 0 (c.next k) = r
  obtain ⟨o, c1⟩ := r
  cases o with
  | none => exact ⟨_, rfl⟩
  | some a =>
    obtain ⟨hs, e1, q1⟩ := xdigits_some hx
    rw [ht] at e1
    simp only
    have surr : 0xD800 ≤ a → a < 0xE000 → charOfU32 a = none := by
      intro h1 h2
      unfold charOfU32
      rw [if_neg]
      intro hv
      simp [Nat.isValidChar] at hv
      omega
    rcases hb with hb | ⟨h', v, t, e, q, r1, r2⟩ | ⟨h', v, t, e, q, r1, r2, hb⟩
    · exact absurd ⟨_, _, _, e1, q1⟩ hb
    · obtain ⟨rfl, rfl⟩ := hex4_split q1 q (e1.symm.trans e)
      rw [surr (by omega) r2]
      simp only
      rw [if_neg (by omega)]
      exact ⟨_, rfl⟩
    · obtain ⟨rfl, rfl⟩ := hex4_split q1 q (e1.symm.trans e)
      rw [surr r1 (by omega)]
      simp only
      by_cases hc : c1.ch = '\\'
      · rw [if_pos ⟨⟨r1, r2⟩, hc⟩]
        by_cases hu : (c1.next k).ch = 'u'
        · rw [if_pos hu]
          generalize hx2 : xdigits k 4 0 ((c1.next k).next k) = r
          obtain ⟨o, c2⟩ := r
          cases o with
          | none => exact ⟨_, rfl⟩
          | some b =>
            obtain ⟨ls, e2, q2⟩ := xdigits_some hx2
            simp only
            by_cases hr : 0xdc00 ≤ b ∧ b < 0xe000
            · exfalso
              apply hb
              refine ⟨ls, b, c2.txt, ?_, q2, hr.1, hr.2⟩
              cases ec : c1.txt with
              | nil => rw [Cur.ch_nil ec] at hc; exact absurd hc (by decide)
              | cons x xs =>
                rw [Cur.ch_cons ec] at hc
                subst hc
                have ec1 : (c1.next k).txt = xs := by rw [Cur.next_txt, ec]; rfl
                cases ecs : xs with
                | nil => rw [Cur.ch_nil (ec1.trans ecs)] at hu; exact absurd hu (by decide)
                | cons y ys =>
                  rw [Cur.ch_cons (ec1.trans ecs)] at hu
                  subst hu
                  rw [Cur.next_txt, ec1, ecs] at e2
                  simp only [List.tail_cons] at e2
                  rw [← e2]
            · rw [if_neg hr]; exact ⟨_, rfl⟩
        · rw [if_neg hu]; exact ⟨_, rfl⟩
      · rw [if_neg (by rintro ⟨_, h⟩; exact hc h)]
        exact ⟨_, rfl⟩

/-- A string literal with a malformed escape. -/
theorem lexStr_bad {k} {pre s rest : List Char} (hp : StrBody k pre s) (hb : BadUnicode rest) {n : Nat} {c : Cur}
    (h : c.txt = pre ++ '\\' :: 'u' :: rest) (hn : c.txt.length < n) :
    ∃ c' buf', lexStr k n c [] = .bad c' buf' := by
  obtain ⟨n', c', e', l', r'⟩ := hp n c ('\\' :: 'u' :: rest) [] h hn
  rw [r']
  cases n' with
  | zero => simp at l'
  | succ n' =>
    have hc : c'.ch = '\\' := Cur.ch_cons e'
    have e2 : (c'.next k).txt = 'u' :: rest := by rw [Cur.next_txt, e']; rfl
    have hc2 : (c'.next k).ch = 'u' := Cur.ch_cons e2
    obtain ⟨c3, h3⟩ := hexUnescape_bad (k := k) e2 hb
    have e : ('\\' : Char) ≠ '"' := by decide
    have e0 : ('u' : Char) ≠ '\x00' := by decide
    simp [lexStr, hc, hc2, e, e0, h3]

theorem jNext_badStr {fl} {pre s rest : List Char} (hp : StrLit pre s) (hb : BadUnicode rest) {st : PSt}
    (h : st.cur.txt = '"' :: (pre ++ '\\' :: 'u' :: rest)) :
    ∃ l c st', jNext fl st = .err ⟨l, c, .cannotParse "string".toList⟩ st' := by
  rw [jNext_start h (by decide) (by decide)]
  have hc := Cur.ch_cons h
  have hn : (st.cur.next jcol).txt = pre ++ '\\' :: 'u' :: rest := by rw [Cur.next_txt, h]; rfl
  obtain ⟨c', b', h'⟩ := lexStr_bad (hp.body (k := jcol)) hb (n := st.cur.txt.length + 1) hn (by simp; omega)
  simp only [jTok, hc, h']
  exact ⟨_, _, _, rfl⟩

end NS
