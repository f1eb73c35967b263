import Verif.Lemmas.TomlScan2
/-! The TOML lexer reads all spellings of `TSpells`; and reading a text token by token. -/
namespace NS
variable {o : TomlOps}

/-- A number begins: what is read is decided after the sign. -/
theorem tNum_lead {a n r : List Char} (h : TLead a n r) {c : Cur} (hc : c.txt = a ++ r) :
    ∃ d, tTok o c = tNumRest o (SignOf a) n d ∧ d.txt = r := by
  cases h with
  | @none x r hx =>
    have hd : isDig c.ch = true := by rw [Cur.ch_cons hc]; exact (digit_iff x).1 hx
    refine ⟨c, ?_, hc⟩
    rw [tTok_num (.inr (.inr hd)), tNum_digit hd]; rfl
  | @plus p r hp =>
    have hs : c.ch = '+' := Cur.ch_cons hc
    obtain ⟨d, h1, h2⟩ := tAfterSign_begun (o := o) (neg := false) (n := []) hp (d := c.tnext) (tnext_cons hc)
    refine ⟨d, ?_, h2⟩
    rw [tTok_num (.inl hs), tNum_plus hs, h1]; rfl
  | @minus p r hp =>
    have hs : c.ch = '-' := Cur.ch_cons hc
    obtain ⟨d, h1, h2⟩ := tAfterSign_begun (o := o) (neg := true) (n := ['-']) hp (d := c.tnext) (tnext_cons hc)
    refine ⟨d, ?_, h2⟩
    rw [tTok_num (.inr (.inl hs)), tNum_minus hs, h1]; rfl

theorem notBefore_digU {r : List Char} (h : NotBefore (fun c => Bare c ∨ c = '.') r) : StopAt isDigU r :=
  notBefore_stop h fun c hc => .inl ((bare_iff c).2 (isDigU_ident hc))

theorem notBefore_ch {r : List Char} (h : NotBefore (fun c => Bare c ∨ c = '.') r) {c : Cur} (hc : c.txt = r) :
    c.ch ≠ '.' ∧ c.ch ≠ '-' ∧ isTIdent c.ch = false := by
  cases r with
  | nil => rw [Cur.ch_nil hc]; decide
  | cons x r =>
    rw [Cur.ch_cons hc]
    have := h x rfl
    simp only [not_or] at this
    refine ⟨this.2, ?_, ?_⟩
    · intro e; subst e; exact this.1 ((bare_iff '-').2 (by decide))
    · cases hb : isTIdent x with
      | false => rfl
      | true => exact absurd ((bare_iff x).2 hb) this.1

theorem tNumRest_done {neg : Bool} {n g r : List Char} {i : Int} (hg : Digitish g)
    (hr : NotBefore (fun c => Bare c ∨ c = '.') r) (hi : parseI64Str (n ++ ungrouped g) = some i) {c : Cur} (hc : c.txt = g ++ r) :
    ∃ c', tNumRest o neg n c = .ok (if neg then .i64 i else .u64 i.toNat) c' ∧ c'.txt = r := by
  have key := span_run (k := rcol) (p := isDigU) (c := c) hc hg.all (notBefore_digU hr)
  obtain ⟨h1, h2, h3⟩ := notBefore_ch hr key.2
  refine ⟨(c.span rcol isDigU).2, ?_, key.2⟩
  simp only [tNumRest, if_neg h1, if_neg h2, h3, key.1, ungrouped_eq, hi]
  simp

theorem tTok_spells {s r : List Char} {t : TTok} (h : TSpells o s r t) {c : Cur}
    (hc : c.txt = s ++ r) : ∃ c', tTok o c = .ok t c' ∧ c'.txt = r := by
  have quote : ∀ {q}, c.txt = '"' :: q → tTok o c = tStr c := by
    intro q hq
    simp [tTok, Cur.ch_cons hq, isDig]
  cases h with
  | comma => exact ⟨c.tnext, by simp [tTok, Cur.ch_cons hc], tnext_cons hc⟩
  | equals => exact ⟨c.tnext, by simp [tTok, Cur.ch_cons hc], tnext_cons hc⟩
  | blockOpen => exact ⟨c.tnext, by simp [tTok, Cur.ch_cons hc], tnext_cons hc⟩
  | blockClose => exact ⟨c.tnext, by simp [tTok, Cur.ch_cons hc], tnext_cons hc⟩
  | str hq hb h =>
    rw [quote (q := _) (by rw [hc]; rfl)]
    exact tStr_str hq hb h hc
  | @long b s x r h hx =>
    rw [quote (q := _) (by rw [hc]; rfl)]
    exact tStr_longBody h (r := x :: r) (by simpa using hx) (by rw [hc]; simp)
  | longEnd h =>
    rw [quote (q := _) (by rw [hc]; rfl)]
    exact tStr_longBody h (r := []) (by simp) (by rw [hc]; simp)
  | @bare x w r t hb hd hm hw hr ht =>
    rw [tTok_ident (Cur.ch_cons hc) hb hd hm]
    refine tIdent_complete ?_ hr ht hc
    intro y hy
    rcases List.mem_cons.1 hy with rfl | hy
    · exact .inl hb
    · exact hw y hy
  | @signedInf sg b r hs hr =>
    rcases hs with ⟨rfl, rfl⟩ | ⟨rfl, rfl⟩
    · have hs : c.ch = '+' := Cur.ch_cons hc
      rw [tTok_num (.inl hs), tNum_plus hs]
      exact tAfterSign_full (.inr rfl) hr (tnext_cons hc)
    · have hs : c.ch = '-' := Cur.ch_cons hc
      rw [tTok_num (.inr (.inl hs)), tNum_minus hs]
      exact tAfterSign_full (.inr rfl) hr (tnext_cons hc)
  | @signedNan sg b r hs hr =>
    rcases hs with ⟨rfl, rfl⟩ | ⟨rfl, rfl⟩
    · have hs : c.ch = '+' := Cur.ch_cons hc
      rw [tTok_num (.inl hs), tNum_plus hs]
      exact tAfterSign_full (.inl rfl) hr (tnext_cons hc)
    · have hs : c.ch = '-' := Cur.ch_cons hc
      rw [tTok_num (.inr (.inl hs)), tNum_minus hs]
      exact tAfterSign_full (.inl rfl) hr (tnext_cons hc)
  | @pos a g r ha hl hg hne hlt hr =>
    obtain ⟨d, h1, h2⟩ := tNum_lead (o := o) hl (c := c) (by rw [hc]; simp)
    have hs : SignOf a = false := by rcases ha with rfl | rfl <;> rfl
    rw [h1, hs]
    exact tNumRest_done hg hr (by rw [List.nil_append]; exact parseI64_pos hne hg.dig hlt) h2
  | @neg g r hl hg hne hlt hr =>
    obtain ⟨d, h1, h2⟩ := tNum_lead (o := o) hl (c := c) (by rw [hc]; simp)
    rw [h1]
    exact tNumRest_done (neg := true) hg hr (parseI64_neg hne hg.dig hlt) h2
  | @float a n g f x r hl hg hf hr hx =>
    obtain ⟨d, h1, h2⟩ := tNum_lead (o := o) hl (c := c) (by rw [hc]; simp)
    rw [h1]
    have key := span_run (k := rcol) (p := isDigU) (c := d) h2 hg.all (StopAt.cons (by decide))
    have k2 := span_run (k := rcol) (p := isDigU) (c := (d.span rcol isDigU).2.tnext) (tnext_cons key.2) hf.all
      (notBefore_stop hr fun c hc => (digU_iff c).2 hc)
    refine ⟨((d.span rcol isDigU).2.tnext.span rcol isDigU).2, ?_, k2.2⟩
    simp only [tNumRest, Cur.ch_cons key.2, if_true, key.1, k2.1, ungrouped_eq, hx]
  | @date a n g w r hl hg hw hr =>
    obtain ⟨d, h1, h2⟩ := tNum_lead (o := o) hl (c := c) (by rw [hc]; simp)
    rw [h1]
    have key := span_run (k := rcol) (p := isDigU) (c := d) h2 hg.all (StopAt.cons (by decide))
    have k2 := span_run (k := rcol) (p := isTDate) (c := (d.span rcol isDigU).2.tnext) (tnext_cons key.2)
      (fun x hx => (tdate_iff x).1 (hw x hx)) (notBefore_stop hr fun c hc => (tdate_iff c).2 hc)
    refine ⟨((d.span rcol isDigU).2.tnext.span rcol isTDate).2, ?_, k2.2⟩
    simp only [tNumRest, Cur.ch_cons key.2, if_true, if_neg (show '-' ≠ '.' by decide), key.1, k2.1, ungrouped_eq]
  | @numBare a n g x w r t hl hg hb hd hu hm hw hr ht =>
    obtain ⟨d, h1, h2⟩ := tNum_lead (o := o) hl (c := c) (by rw [hc]; simp)
    rw [h1]
    have hxu : isDigU x = false := by
      cases h : isDigU x with
      | false => rfl
      | true =>
        rcases (digU_iff x).2 h with h | h
        · exact absurd h hd
        · exact absurd h hu
    have key := span_run (k := rcol) (p := isDigU) (c := d) h2 hg.all (StopAt.cons hxu)
    have hdot : x ≠ '.' := by
      intro e; subst e
      have := (bare_iff '.').1 hb
      revert this; decide
    obtain ⟨c', e1, e2⟩ := tIdent_complete (start := n ++ ungrouped g) (w := x :: w) (r := r) (t := t) (by
      intro y hy
      rcases List.mem_cons.1 hy with rfl | hy
      · exact .inl hb
      · exact hw y hy) hr ht (c := (d.span rcol isDigU).2) (by rw [key.2]; rfl)
    refine ⟨c', ?_, e2⟩
    simp only [tNumRest, Cur.ch_cons key.2, if_neg hdot, if_neg hm, (bare_iff x).1 hb, if_true, key.1, ungrouped_eq]
    exact e1

theorem tNext_spells {w s r : List Char} {t : TTok} (hw : TLayout w) (h : TSpells o s r t) {c : Cur}
    (hc : c.txt = w ++ s ++ r) : ∃ c', tNext o c = .ok t c' ∧ c'.txt = r := by
  obtain ⟨x, s', rfl, h1, h2, h3⟩ := h.head
  obtain ⟨d, e, hd⟩ := tSkip_layout hw (rest := x :: s' ++ r) (by
    intro y q e; injection e with e _; subst e; simp [h1, h2]) (n := c.txt.length + 1) (c := c)
    (by rw [hc]; simp) (by rw [hc]; simp; omega)
  obtain ⟨c', e', ht⟩ := tTok_spells h hd
  exact ⟨c', by simp only [tNext, e, e'], ht⟩

theorem tNext_ends {w r : List Char} (hw : TLayoutEnd w) (hr : TEnds r) {c : Cur} (hc : c.txt = w ++ r) :
    ∃ c', tNext o c = .ok .eof c' ∧ c'.txt = r := by
  obtain ⟨d, e, hd⟩ := tSkip_ends hw hr hc
  exact ⟨d, by simp [tNext, e, tTok, (TEnds.iff (c := d)).1 (by rw [hd]; exact hr)], hd⟩

theorem TSpells.ne_eof {s r : List Char} {t : TTok} (h : TSpells o s r t) : t ≠ .eof := by
  have word : ∀ {w t}, TWordIs w t → t ≠ .eof := by
    intro w t h e
    subst e
    cases h with
    | word hw => simp [tomlWords] at hw
  intro e
  cases h <;> first | (cases e; done) | skip
  · rename_i h; exact word h e
  · rename_i h; exact word h e

/-! ## Sequences of tokens -/

theorem TLexes.feeds {ts : List TTok} {txt tail : List Char} (h : TLexes o ts txt tail) :
    ∀ {c : Cur}, c.txt = txt → ∃ c', Feeds o ts c c' ∧ c'.txt = tail := by
  induction h with
  | nil => intro c hc; exact ⟨c, .nil, hc⟩
  | cons hw hs _ ih =>
    intro c hc
    obtain ⟨c1, e, h1⟩ := tNext_spells hw hs hc
    obtain ⟨c2, h2, h3⟩ := ih h1
    exact ⟨c2, .cons e h2, h3⟩

theorem Feeds.lexes {ts : List TTok} {c c' : Cur} (h : Feeds o ts c c') (he : .eof ∉ ts) : TLexes o ts c.txt c'.txt := by
  induction h with
  | nil => exact .nil
  | cons e _ ih =>
    simp only [List.mem_cons, not_or] at he
    rcases tNext_sound e with ⟨w, s, h1, h2, h3⟩ | ⟨rfl, _⟩
    · rw [h1]
      exact .cons h2 h3 (ih he.2)
    · exact absurd rfl he.1

theorem Feeds.append {a b : List TTok} {c c1 c2 : Cur} (h : Feeds o a c c1) (g : Feeds o b c1 c2) : Feeds o (a ++ b) c c2 := by
  induction h with
  | nil => exact g
  | cons e _ ih => exact .cons e (ih g)

end NS
