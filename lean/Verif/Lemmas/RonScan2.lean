import Verif.Lemmas.RonScan
import Verif.Lemmas.RonRead
/-! The RON lexer reads every sequence of spellings. -/
namespace NS
variable {fl : FloatOps}

theorem StopAt.of_head {p : Char → Bool} {r : List Char} (h : ∀ x, r.head? = some x → p x = false) : StopAt p r := by
  intro x t e
  exact h x (by rw [e]; rfl)

theorem Cur.ch_ne_of {c : Cur} {r : List Char} {y : Char} (h : c.txt = r) (hy : y ≠ '\x00')
    (hr : ∀ x, r.head? = some x → x ≠ y) : c.ch ≠ y := by
  cases r with
  | nil => rw [Cur.ch_nil h]; exact hy.symm
  | cons x t => rw [Cur.ch_cons h]; exact hr x rfl

/-- Reading a number that is as long as possible. -/
theorem lexNum_gen {k} {c : Cur} {sg ip fr ex s tail : List Char}
    (e : s = sg ++ ip ++ fr ++ ex) (hsg : sg = [] ∨ sg = ['-'] ∨ sg = ['+'])
    (hip : sg = [] → ip ≠ [] ∨ fr ≠ []) (hipd : Digits ip) (hfr : fr = [] ∨ ∃ f, fr = '.' :: f ∧ Digits f)
    (hex : ex = [] ∨ ∃ e m y, ex = e :: (m ++ y) ∧ (e = 'e' ∨ e = 'E') ∧ (m = [] ∨ m = ['-']) ∧ y ≠ [] ∧ Digits y)
    (h : c.txt = s ++ tail)
    (ht0 : ∀ x, tail.head? = some x → isDig x = false)
    (ht1 : ex = [] → ∀ x, tail.head? = some x → x ≠ 'e' ∧ x ≠ 'E')
    (ht2 : fr = [] → ex = [] → ∀ x, tail.head? = some x → x ≠ '.') :
    ∃ c', c'.txt = tail ∧ lexNum k fl c = (if fr ≠ [] ∨ ex ≠ [] then (fl.parse64 s).map Tok.f64
      else if sg = ['-'] then parseI64 ip else parseU64 ip, c') := by
  have hA : ∃ a : List Char × Cur, (if c.ch = '-' ∨ c.ch = '+' then ([c.ch], c.next k) else ([], c)) = a ∧
      a.1 = sg ∧ a.2.txt = ip ++ (fr ++ (ex ++ tail)) := by
    rcases hsg with rfl | rfl | rfl
    · have hch : ¬ (c.ch = '-' ∨ c.ch = '+') := by
        cases hipe : ip with
        | cons d ds =>
          rw [Cur.ch_cons (x := d) (t := ds ++ (fr ++ (ex ++ tail))) (by rw [h, e, hipe]; simp)]
          have := digits_isDig hipd d (by rw [hipe]; simp)
          rcases isDig_cases this with e | e | e | e | e | e | e | e | e | e <;> subst e <;> decide
        | nil =>
          rcases hip rfl with h1 | h1
          · exact absurd hipe h1
          · rcases hfr with rfl | ⟨f, rfl, _⟩
            · exact absurd rfl h1
            · rw [Cur.ch_cons (x := '.') (t := f ++ (ex ++ tail)) (by rw [h, e, hipe]; simp)]
              decide
      exact ⟨_, rfl, by rw [if_neg hch], by rw [if_neg hch]; simp [h, e]⟩
    · have hch : c.ch = '-' := Cur.ch_cons (t := ip ++ (fr ++ (ex ++ tail))) (by rw [h, e]; simp)
      refine ⟨_, rfl, by simp [hch], by simp [hch, h, e]⟩
    · have hch : c.ch = '+' := Cur.ch_cons (t := ip ++ (fr ++ (ex ++ tail))) (by rw [h, e]; simp)
      refine ⟨_, rfl, by simp [hch], by simp [hch, h, e]⟩
  obtain ⟨a, ea, ha1, ha2⟩ := hA
  have hstop1 : StopAt isDig (fr ++ (ex ++ tail)) := by
    rcases hfr with rfl | ⟨f, rfl, _⟩
    · rcases hex with rfl | ⟨e', m, x, rfl, he', _, _, _⟩
      · exact .of_head ht0
      · exact StopAt.cons (by rcases he' with rfl | rfl <;> decide)
    · exact StopAt.cons (by decide)
  obtain ⟨hb1, hb2⟩ := span_run (k := k) ha2 (digits_isDig hipd) hstop1
  have hD : ∃ d : List Char × Cur, (if (a.2.span k isDig).2.ch = '.' then
      ('.' :: (((a.2.span k isDig).2.next k).span k isDig).1, (((a.2.span k isDig).2.next k).span k isDig).2)
      else ([], (a.2.span k isDig).2)) = d ∧ d.1 = fr ∧ d.2.txt = ex ++ tail := by
    rcases hfr with rfl | ⟨f, rfl, hfd⟩
    · have : (a.2.span k isDig).2.ch ≠ '.' := by
        rcases hex with rfl | ⟨e', m, x, rfl, he', _, _, _⟩
        · exact Cur.ch_ne_of (by simpa using hb2) (by decide) (ht2 rfl rfl)
        · rw [Cur.ch_cons (by simpa using hb2)]; rcases he' with rfl | rfl <;> decide
      exact ⟨_, rfl, by rw [if_neg this], by rw [if_neg this]; simpa using hb2⟩
    · have hdot : (a.2.span k isDig).2.ch = '.' := Cur.ch_cons (by simpa using hb2)
      have hn : ((a.2.span k isDig).2.next k).txt = f ++ (ex ++ tail) := by rw [Cur.next_txt, hb2]; simp
      have hst : StopAt isDig (ex ++ tail) := by
        rcases hex with rfl | ⟨e', m, x, rfl, he', _, _, _⟩
        · exact .of_head ht0
        · exact StopAt.cons (by rcases he' with rfl | rfl <;> decide)
      obtain ⟨q1, q2⟩ := span_run (k := k) hn (digits_isDig hfd) hst
      exact ⟨_, rfl, by rw [if_pos hdot]; simp only; rw [q1], by rw [if_pos hdot]; exact q2⟩
  obtain ⟨d, ed, hd1, hd2⟩ := hD
  have hE : ∃ e : List Char × Cur, (if d.2.ch = 'e' ∨ d.2.ch = 'E' then
      (d.2.ch :: ((if (d.2.next k).ch = '-' then ((['-'], (d.2.next k).next k) : List Char × Cur) else ([], d.2.next k)).1 ++
        ((if (d.2.next k).ch = '-' then ((['-'], (d.2.next k).next k) : List Char × Cur) else ([], d.2.next k)).2.span k isDig).1),
        ((if (d.2.next k).ch = '-' then ((['-'], (d.2.next k).next k) : List Char × Cur) else ([], d.2.next k)).2.span k isDig).2)
      else ([], d.2)) = e ∧ e.1 = ex ∧ e.2.txt = tail := by
    rcases hex with rfl | ⟨e', m, x, rfl, he', hm, hx, hxd⟩
    · have h1 : ¬ (d.2.ch = 'e' ∨ d.2.ch = 'E') := by
        rintro (h | h)
        · exact Cur.ch_ne_of (by simpa using hd2) (by decide) (fun x hx => (ht1 rfl x hx).1) h
        · exact Cur.ch_ne_of (by simpa using hd2) (by decide) (fun x hx => (ht1 rfl x hx).2) h
      exact ⟨_, rfl, by rw [if_neg h1], by rw [if_neg h1]; simpa using hd2⟩
    · have he : d.2.ch = e' := Cur.ch_cons (by simpa using hd2)
      have hn : (d.2.next k).txt = m ++ (x ++ tail) := by rw [Cur.next_txt, hd2]; simp
      have hst : StopAt isDig tail := .of_head ht0
      refine ⟨_, rfl, ?_⟩
      rw [if_pos (by rw [he]; exact he')]
      rcases hm with rfl | rfl
      · have hne : (d.2.next k).ch ≠ '-' := by
          cases hxe : x with
          | nil => exact absurd hxe hx
          | cons y ys =>
            rw [Cur.ch_cons (x := y) (t := ys ++ tail) (by rw [hn, hxe]; rfl)]
            have := digits_isDig hxd y (by rw [hxe]; simp)
            rcases isDig_cases this with e | e | e | e | e | e | e | e | e | e <;> subst e <;> decide
        obtain ⟨q1, q2⟩ := span_run (k := k) (c := d.2.next k) (a := x) (b := tail) (by simpa using hn) (digits_isDig hxd) hst
        rw [if_neg hne]
        simp only [q1, q2, he]
        simp
      · have hne : (d.2.next k).ch = '-' := Cur.ch_cons (by simpa using hn)
        obtain ⟨q1, q2⟩ := span_run (k := k) (c := (d.2.next k).next k) (a := x) (b := tail)
          (by rw [Cur.next_txt, hn]; simp) (digits_isDig hxd) hst
        rw [if_pos hne]
        simp only [q1, q2, he]
        simp
  obtain ⟨ee, eee, he1, he2⟩ := hE
  refine ⟨ee.2, he2, ?_⟩
  unfold lexNum
  simp only [ea, ed, eee, hb1, ha1, hd1, he1]
  by_cases hor : fr ≠ [] ∨ ex ≠ []
  · rw [if_pos hor, if_pos hor, ← e]
  · rw [if_neg hor, if_neg hor]
    split <;> rfl

theorem not_mem_digits {s : List Char} (h : Digits s) {x : Char} (hx : isDig x = false) : x ∉ s := by
  intro hm
  rw [digits_isDig h x hm] at hx
  cases hx

/-- Numbers that are as long as possible are read as such. -/
theorem lexNum_complete {k s m} (h : NumLit fl s m ∨ DotNum fl s m) {c : Cur} {tail : List Char} (hc : c.txt = s ++ tail)
    (ht : ∀ x, tail.head? = some x → RLongest (.num m) s x) :
    (∃ c', c'.txt = tail ∧ lexNum k fl c = (some m.tok, c')) ∧
      (c.ch = '.' ∨ c.ch = '-' ∨ c.ch = '+' ∨ isDig c.ch = true) ∧ c.txt ≠ [] := by
  have ht0 : ∀ x, tail.head? = some x → isDig x = false := by
    intro x hx
    have := (ht x hx).1
    cases hd : isDig x with
    | false => rfl
    | true => exact absurd (by simpa [isDig] using hd) this
  rcases h with h | h
  · refine ⟨?_, ?_, ?_⟩
    · cases h with
      | @nat sg ds hsg hne hd hv =>
        have nosg : ∀ x : Char, isDig x = false → x ≠ '+' → x ∉ sg ++ ds := by
          intro x h1 h2 hm
          rcases List.mem_append.1 hm with hm | hm
          · rcases hsg with rfl | rfl
            · cases hm
            · simp at hm; exact h2 hm
          · exact not_mem_digits hd h1 hm
        have ne := nosg 'e' (by decide) (by decide)
        have nE := nosg 'E' (by decide) (by decide)
        have nd := nosg '.' (by decide) (by decide)
        obtain ⟨c', h1, h2⟩ := lexNum_gen (fl := fl) (k := k) (sg := sg) (ip := ds) (fr := []) (ex := []) (s := sg ++ ds) (by simp)
          (by rcases hsg with rfl | rfl <;> simp) (fun _ => .inl hne) hd (.inl rfl) (.inl rfl) hc ht0
          (fun _ x hx => by
            have := (ht x hx).2.1
            constructor <;> rintro rfl
            · rcases this (.inl rfl) with h | h <;> contradiction
            · rcases this (.inr rfl) with h | h <;> contradiction)
          (fun _ _ x hx => by
            rintro rfl
            rcases (ht _ hx).2.2 rfl with h | h | h <;> contradiction)
        refine ⟨c', h1, ?_⟩
        rw [h2, if_neg (by simp), if_neg (by rcases hsg with rfl | rfl <;> decide), parseU64, if_neg hne, digitsVal_decimal, if_pos hv]; rfl
      | @neg ds hne hd hv =>
        have nosg : ∀ x : Char, isDig x = false → x ≠ '-' → x ∉ '-' :: ds := by
          intro x h1 h2 hm
          rcases List.mem_cons.1 hm with hm | hm
          · exact h2 hm
          · exact not_mem_digits hd h1 hm
        have ne := nosg 'e' (by decide) (by decide)
        have nE := nosg 'E' (by decide) (by decide)
        have nd := nosg '.' (by decide) (by decide)
        obtain ⟨c', h1, h2⟩ := lexNum_gen (fl := fl) (k := k) (sg := ['-']) (ip := ds) (fr := []) (ex := []) (s := '-' :: ds) (by simp)
          (by simp) (by simp) hd (.inl rfl) (.inl rfl) hc ht0
          (fun _ x hx => by
            have := (ht x hx).2.1
            constructor <;> rintro rfl
            · rcases this (.inl rfl) with h | h <;> contradiction
            · rcases this (.inr rfl) with h | h <;> contradiction)
          (fun _ _ x hx => by
            rintro rfl
            rcases (ht _ hx).2.2 rfl with h | h | h <;> contradiction)
        refine ⟨c', h1, ?_⟩
        rw [h2, if_neg (by simp), if_pos rfl, parseI64, if_neg hne, digitsVal_decimal, if_pos hv]; rfl
      | @float sg ip fr ex x hsg hip hd hfr hex hor hp =>
        have nosg : ∀ x : Char, isDig x = false → x ≠ '-' → x ≠ '+' → x ≠ '.' → ex = [] → x ∉ sg ++ ip ++ fr ++ ex := by
          intro x h1 h2 h3 h4 h5 hm
          rw [h5, List.append_nil] at hm
          rcases List.mem_append.1 hm with hm | hm
          · rcases List.mem_append.1 hm with hm | hm
            · rcases hsg with rfl | rfl | rfl
              · cases hm
              · simp at hm; exact h2 hm
              · simp at hm; exact h3 hm
            · exact not_mem_digits hd h1 hm
          · rcases hfr with rfl | ⟨f, rfl, hf⟩
            · cases hm
            · rcases List.mem_cons.1 hm with hm | hm
              · exact h4 hm
              · exact not_mem_digits hf h1 hm
        obtain ⟨c', h1, h2⟩ := lexNum_gen (fl := fl) (k := k) rfl hsg
          (fun h0 => .inl (by rw [h0] at hip; simpa using hip)) hd hfr hex hc ht0
          (fun h0 x hx => by
            have := (ht x hx).2.1
            have ne := nosg 'e' (by decide) (by decide) (by decide) (by decide) h0
            have nE := nosg 'E' (by decide) (by decide) (by decide) (by decide) h0
            constructor <;> rintro rfl
            · rcases this (.inl rfl) with h | h <;> contradiction
            · rcases this (.inr rfl) with h | h <;> contradiction)
          (fun h0 h0' => by rcases hor with h | h <;> contradiction)
        refine ⟨c', h1, ?_⟩
        rw [h2, if_pos hor, hp]; rfl
    · obtain ⟨x, r, e, hx⟩ := h.head
      rw [e] at hc
      rw [Cur.ch_cons hc]
      exact .inr hx
    · obtain ⟨x, r, e, hx⟩ := h.head
      rw [hc, e]; simp
  · obtain ⟨f, ex, x, rfl, hf, hex, hp, rfl⟩ := h
    refine ⟨?_, .inl (Cur.ch_cons hc), by rw [hc]; simp⟩
    have nosg : ∀ x : Char, isDig x = false → x ≠ '.' → ex = [] → x ∉ '.' :: (f ++ ex) := by
      intro x h1 h4 h5 hm
      rw [h5, List.append_nil] at hm
      rcases List.mem_cons.1 hm with hm | hm
      · exact h4 hm
      · exact not_mem_digits hf h1 hm
    obtain ⟨c', h1, h2⟩ := lexNum_gen (fl := fl) (k := k) (sg := []) (ip := []) (fr := '.' :: f) (ex := ex)
      (s := '.' :: (f ++ ex)) (by simp) (.inl rfl) (fun _ => .inr (by simp)) (by intro c hc; cases hc)
      (.inr ⟨f, rfl, hf⟩) hex hc ht0
      (fun h0 x hx => by
        have := (ht x hx).2.1
        have ne := nosg 'e' (by decide) (by decide) h0
        have nE := nosg 'E' (by decide) (by decide) h0
        constructor <;> rintro rfl
        · rcases this (.inl rfl) with h | h <;> contradiction
        · rcases this (.inr rfl) with h | h <;> contradiction)
      (fun h0 => by simp at h0)
    refine ⟨c', h1, ?_⟩
    rw [h2, if_pos (by simp), hp]; rfl

namespace Ron

theorem tok_num' {s m tail} (h : NumLit fl s m ∨ DotNum fl s m) (ht : ∀ x, tail.head? = some x → RLongest (.num m) s x) :
    TokAt (rNext fl) (s ++ tail) m.tok tail none none := by
  intro st hst
  obtain ⟨⟨c', h1, h2⟩, hx, hne⟩ := lexNum_complete (k := rcol) h hst ht
  refine ⟨c', h1, ?_⟩
  obtain ⟨y, r, e⟩ := List.exists_cons_of_ne_nil hne
  rw [Cur.ch_cons e] at hx
  have hf : isWs y = false ∧ y ≠ '/' ∧ y ≠ '\x00' ∧ rPunct y = none ∧ y ≠ '\'' := by
    rcases hx with rfl | rfl | rfl | hx
    · decide
    · decide
    · decide
    · rcases isDig_cases hx with e | e | e | e | e | e | e | e | e | e <;> subst e <;> decide
  rw [next_start e hf.1 hf.2.1 hf.2.2.2.2]
  have := Cur.ch_cons e
  simp only [rTok, this, if_neg hf.2.2.1, hf.2.2.2.1, if_pos hx, h2]
  rfl

theorem tok_spell {l s r} (h : RSpells' fl l s) (hr : ∀ c, r.head? = some c → RLongest l s c) :
    TokAt (rNext fl) (s ++ r) (rtok l) r l.sb l.ib := by
  rcases h with h | ⟨t, rfl, h⟩
  · cases h with
    | num h => exact tok_num' (.inl h) hr
    | word h => exact RSpell.tokAt (.word h) hr
    | str h => exact RSpell.tokAt (.str h) trivial
    | _ => exact RSpell.tokAt (by constructor) trivial
  · exact tok_num' (.inr h) hr

theorem short {txt t rest sb ib} (ht : TokAt (rNext fl) txt t rest sb ib) :
    TokAt (rNext fl) ('/' :: '*' :: '/' :: txt) t rest sb ib := by
  intro st hst
  have h1 : (st.cur.next rcol).txt = '*' :: '/' :: txt := by simp [hst]
  have hch : (st.cur.next rcol).ch = '*' := Cur.ch_cons h1
  have e2 : (rBlock (st.cur.next rcol).txt false (st.cur.next rcol).line (st.cur.next rcol).col).txt = txt := by
    rw [h1]
    simp [rBlock]
  have : rNext fl st = rNext fl { st with cur := rBlock (st.cur.next rcol).txt false (st.cur.next rcol).line (st.cur.next rcol).col } := by
    refine next_via ?_ ?_
    · rw [e2, hst]; simp; omega
    · intro n
      rw [skip_slash (by simpa using hst), hch, if_neg (by decide), if_pos rfl]
  rw [this]
  exact ht _ e2

theorem rlayout {w} (h : RLayout w) {txt t rest sb ib} (ht : TokAt (rNext fl) txt t rest sb ib) :
    TokAt (rNext fl) (w ++ txt) t rest sb ib := by
  induction h with
  | nil => exact ht
  | @space c w hc _ ih => exact layout (.space hc .nil) ih
  | @line b w h1 h2 _ ih => simpa using layout (.line h1 h2 .nil) ih
  | @block b w h1 h2 _ ih => simpa using layout (.block h1 h2 .nil) ih
  | short _ ih => exact short ih
  | @char c w hc _ ih => exact charLit (b := [c]) (.inl ⟨rfl, hc⟩) ih
  | @escaped c w _ ih => exact charLit (b := ['\\', c]) (.inr rfl) ih

/-- The end of the text or a NUL. -/
theorem tok_fin {r : List Char} (h : r = [] ∨ r.head? = some '\x00') : TokAt (rNext fl) r .eof r none none := by
  rcases h with rfl | h
  · exact tok_end
  · cases r with
    | nil => cases h
    | cons x r =>
      simp at h
      subst h
      intro st hst
      refine ⟨st.cur, hst, ?_⟩
      rw [next_start hst (by decide) (by decide) (by decide)]
      simp [rTok, Cur.ch_cons hst]

theorem rscanEnd {txt} (h : RScanEnd txt) : ∃ r, TokAt (rNext fl) txt .eof r none none := by
  obtain ⟨w, e, r, rfl, hw, he, hr⟩ := h
  refine ⟨r, ?_⟩
  rw [List.append_assoc]
  refine rlayout hw ?_
  have fin := tok_fin (fl := fl) hr
  rcases he with rfl | ⟨b, rfl, h1, h2⟩ | ⟨b, rfl, h1, h2⟩
  · exact fin
  · intro st hst
    have g1 : (st.cur.next rcol).txt = ('/' :: b) ++ r := by simp [hst]
    obtain ⟨q1, q2⟩ := span_run (k := rcol) (p := fun x => x ≠ '\n' && x ≠ '\x00') g1
      (by
        intro x hx
        rcases List.mem_cons.1 hx with rfl | hx
        · decide
        · have a1 : x ≠ '\n' := fun e => h1 (e ▸ hx)
          have a2 : x ≠ '\x00' := fun e => h2 (e ▸ hx)
          simp [a1, a2])
      (by
        intro x t e
        rcases hr with rfl | hr
        · cases e
        · rw [e] at hr; simp at hr; subst hr; decide)
    have hnl : ¬ ((st.cur.next rcol).span rcol fun x => x ≠ '\n' && x ≠ '\x00').2.ch = '\n' := by
      refine Cur.ch_ne_of q2 (by decide) fun x hx => ?_
      rcases hr with rfl | hr
      · cases hx
      · rw [hr] at hx; injection hx with hx; subst hx; decide
    have : rNext fl st = rNext fl { st with cur := ((st.cur.next rcol).span rcol fun x => x ≠ '\n' && x ≠ '\x00').2 } := by
      refine next_via ?_ fun n => ?_
      · rw [q2, hst]; simp; omega
      · rw [skip_slash (by simpa using hst), if_pos (Cur.ch_cons (by simpa using g1)), if_neg hnl]
    rw [this]
    exact fin _ q2
  · intro st hst
    have g1 : (st.cur.next rcol).txt = '*' :: (b ++ r) := by simp [hst]
    have hch : (st.cur.next rcol).ch = '*' := Cur.ch_cons g1
    have run : ∀ (b : List Char) (x : Char) (l c : Nat), ¬ ['*', '/'] <:+: x :: b → '\x00' ∉ b →
        (rBlock (b ++ r) (x == '*') l c).txt = r := by
      intro b
      induction b with
      | nil =>
        intro x l c _ _
        rcases hr with rfl | hr
        · simp [rBlock]
        · cases r with
          | nil => cases hr
          | cons z r => simp at hr; subst hr; simp [rBlock]
      | cons y b ih =>
        intro x l c hx h0
        have hy : y ≠ '\x00' := by intro e; exact h0 (by simp [e])
        have hxy : ¬ (y = '/' ∧ (x == '*') = true) := by
          rintro ⟨rfl, h⟩
          simp only [beq_iff_eq] at h
          subst h
          exact hx ⟨[], b, rfl⟩
        have := ih y ((Cur.mk (y :: (b ++ r)) l c).next rcol).line ((Cur.mk (y :: (b ++ r)) l c).next rcol).col
          (by
            rintro ⟨p, q, e⟩
            exact hx ⟨x :: p, q, by rw [← e]; simp⟩)
          (by intro h; exact h0 (by simp [h]))
        simp only [List.cons_append, rBlock, if_neg hy, if_neg hxy]
        exact this
    have e2 : (rBlock (st.cur.next rcol).txt false (st.cur.next rcol).line (st.cur.next rcol).col).txt = r := by
      rw [g1]
      have e1 : ('*' : Char) ≠ '/' := by decide
      have e3 : ('*' : Char) ≠ '\x00' := by decide
      simp only [rBlock, if_neg e3, e1, false_and, if_false]
      exact run b '*' _ _ h1 h2
    have : rNext fl st = rNext fl { st with cur := rBlock (st.cur.next rcol).txt false (st.cur.next rcol).line (st.cur.next rcol).col } := by
      refine next_via ?_ ?_
      · rw [e2, hst]; simp; omega
      · intro n
        rw [skip_slash (by simpa using hst), hch, if_neg (by decide), if_pos rfl]
    rw [this]
    exact fin _ e2

end Ron

theorem RScan.stream {ls txt rest} (h : RScan fl ls txt rest) : Stream (rNext fl) rtok txt ls rest := by
  induction h with
  | nil => exact .nil
  | cons h1 h2 h3 _ ih =>
    refine .cons ?_ ih
    rw [List.append_assoc]
    exact Ron.rlayout h1 (Ron.tok_spell h2 h3)

theorem RWhole.stream {ls txt} (h : RWhole fl ls txt) : ∃ r, Stream (rNext fl) rtok txt (ls ++ [.eof]) r := by
  obtain ⟨rest, h1, h2⟩ := h
  obtain ⟨r, h2⟩ := Ron.rscanEnd (fl := fl) h2
  exact ⟨r, h1.stream.append (.cons h2 .nil)⟩

end NS
