import Verif.Lemmas.Stream
/-! Reading several RON values in a row. -/
namespace NS
variable {fl : FloatOps} {env : Env}

theorem WordPair.reads_on {t w w' v} (h : WordPair env t w w' v) :
    Ev fun n => ∀ st rest tail, RPos fl st (.word w :: .word w' :: rest) tail →
      Yields (deRon env fl n t st) v fun s => RPos fl s (.word w' :: rest) tail := by
  induction h with
  | true =>
    refine Ron.Ev.succ (.of fun n st rest tail h => Yields.get ?_)
    rw [show st.tok = .bool Bool.true from h.tok]
    exact Yields.bind (h.next' (by simp)) fun s2 h2 => .pure h2
  | false =>
    refine Ron.Ev.succ (.of fun n st rest tail h => Yields.get ?_)
    rw [show st.tok = .bool Bool.false from h.tok]
    exact Yields.bind (h.next' (by simp)) fun s2 h2 => .pure h2
  | epoch =>
    refine Ron.Ev.succ (.of fun n st rest tail h => Yields.get ?_)
    rw [if_pos (Ron.atNone_true h)]
    exact Yields.bind (h.next' (by simp)) fun s2 h2 => ⟨s2, rfl, h2⟩
  | none =>
    refine Ron.Ev.succ (.of fun n st rest tail h => Yields.get ?_)
    rw [if_pos (Ron.atNone_true h)]
    exact Yields.bind (h.next' (by simp)) fun s2 h2 => .pure h2
  | some hw _ ih =>
    refine Ron.Ev.succ (ih.mono fun n hr st rest tail h => Yields.get ?_)
    rw [if_neg (by rw [Ron.atNone_false (x := .word _) hw (by rw [RTree.lexemes]; exact h)]; simp)]
    exact Yields.bind (hr st rest tail h) fun s2 h2 => .pure h2
  | box _ ih =>
    refine Ron.Ev.succ (ih.mono fun n hr st rest tail h => ?_)
    exact Yields.bind (hr st rest tail h) fun s2 h2 => .pure h2
  | @variant i vars w w' j var hd hnb hj hname hfirst hsh =>
    refine Ron.Ev.succ (.of fun n st rest tail h => ?_)
    rw [deRon]
    simp only [hd]
    have ht : st.tok = .ident := by rw [h.tok]; simp [rtok, hnb.1, hnb.2]
    unfold deRonEnum
    refine Yields.bind (a := ()) (Q := fun s => RPos fl s (.word w' :: rest) tail ∧ s.identbuf = w') ?_ fun s1 h1 => Yields.get ?_
    · rw [expectTok_ok ht]
      obtain ⟨s1, e1, h1, _, h3⟩ := h.next
      exact ⟨s1, e1, h1, h3⟩
    · have hfind : vars.findIdx? (fun v => v.name == w') = Option.some j := by
        have hjl : j < vars.length := by
          rcases Nat.lt_or_ge j vars.length with h | h
          · exact h
          · rw [List.getElem?_eq_none h] at hj; cases hj
        rw [List.findIdx?_eq_some_iff_getElem]
        refine ⟨hjl, ?_, fun i hi => ?_⟩
        · rw [List.getElem?_eq_getElem hjl] at hj; injection hj with hj
          simp [hj, hname]
        · have := hfirst i hi _ (List.getElem?_eq_getElem (by omega))
          simpa using this
      have hget : vars.getD j { name := [], shape := .unit } = var := by simp [List.getD, hj]
      rw [h1.2, hfind]
      simp only [hget, hsh]
      exact Yields.bind (a := []) (Q := fun s => RPos fl s (.word w' :: rest) tail) (.pure h1.1) fun s2 h2 => .pure h2

theorem ron_fits {ls rest : List Lexeme} (h : ¬ ((∃ a, ls = [.word a]) ∧ ∃ b, rest.head? = some (.word b))) : Ron.Fits ls (rest ++ [.eof]) := by
  refine ⟨by simp, fun w e l r e' => ?_⟩
  cases rest with
  | nil => simp at e'; rw [← e'.1]; rfl
  | cons l' r' =>
    simp at e'
    obtain ⟨rfl, _⟩ := e'
    cases l' with
    | word b => exact absurd ⟨⟨w, e⟩, b, rfl⟩ h
    | _ => rfl

theorem RonRow.reads (hk : LawfulKeys env) {ts ls vs} (h : RonRow env fl ts ls vs) :
    Ev fun n => ∀ st tail, RPos fl st (ls ++ [.eof]) tail →
      Yields (readEach (deRon env fl n) ts st) vs fun s => RPos fl s [.eof] tail := by
  induction h with
  | nil => exact .of fun n st tail h => .pure h
  | @cons t x v ts rest vs h1 h2 _ ih =>
    refine ((Ron.reads hk h1).and ih).mono fun n hr st tail h => ?_
    rw [List.append_assoc] at h
    exact Yields.bind (hr.1 st _ tail (ron_fits h2) h) fun s1 g1 => Yields.bind (hr.2 s1 tail g1) fun s2 g2 => .pure g2
  | words h1 _ ih =>
    refine ((h1.reads_on (fl := fl)).and ih).mono fun n hr st tail h => ?_
    exact Yields.bind (hr.1 st _ tail h) fun s1 g1 => Yields.bind (hr.2 s1 tail g1) fun s2 g2 => .pure g2

theorem ronEach_of_row (hk : LawfulKeys env) {ts ls vs txt} {r} (hs : Stream (rNext fl) rtok txt (ls ++ [.eof]) r)
    (h : RonRow env fl ts ls vs) : DecodesAll (fun n => ronEach env fl n ts txt) vs := by
  obtain ⟨s1, e1, h1⟩ := stream_start (col := rcol) hs
  obtain ⟨N, hr⟩ := h.reads hk
  refine ⟨N, fun n hn => ?_⟩
  obtain ⟨s2, e2, h2⟩ := hr n hn s1 r h1
  refine ⟨s2, ?_, h2.tok⟩
  show (rNext fl >>= fun _ => readEach (deRon env fl n) ts : PM (List Val)) (initSt rcol txt) = _
  rw [M.bind_ok e1]; exact e2

theorem RonRow.length {ts ls vs} (h : RonRow env fl ts ls vs) : vs.length = ts.length := by
  induction h with
  | nil => rfl
  | cons _ _ _ ih => simp [ih]
  | words _ _ ih => simp [ih]

theorem ron_start_ne {l : Lexeme} (h : Ron.IsStart l) : rtok l ≠ .eof := by
  cases l with
  | punct t =>
    rcases h with ⟨w, h⟩ | h
    · cases h
    · cases t <;> simp_all [rtok]
  | num t => cases t <;> simp [rtok, Num.tok]
  | word w =>
    simp only [rtok]
    split
    · simp
    · split <;> simp
  | str s => simp [rtok]
  | eof => rcases h with ⟨w, h⟩ | h <;> simp_all

theorem RonRow.reads_until (hk : LawfulKeys env) {t ts ls vs} (h : RonRow env fl ts ls vs)
    (ht : ∀ u ∈ ts, u = t) :
    Ev fun n => ∀ st tail m, ts.length < m → RPos fl st (ls ++ [.eof]) tail →
      Yields (readUntilEof (deRon env fl n t) m st) vs fun s => RPos fl s [.eof] tail := by
  induction h with
  | nil =>
    refine .of fun n st tail m hm h => ?_
    obtain ⟨m, rfl⟩ : ∃ k, m = k + 1 := ⟨m - 1, by simp at hm; omega⟩
    rw [readUntilEof_end (by exact h.tok)]
    exact ⟨st, rfl, h⟩
  | @cons t' x v ts rest vs h1 h2 _ ih =>
    have := ht t' (by simp)
    subst this
    refine ((Ron.reads hk h1).and (ih fun u hu => ht u (by simp [hu]))).mono fun n hr st tail m hm h => ?_
    rw [List.append_assoc] at h
    obtain ⟨m, rfl⟩ : ∃ k, m = k + 1 := ⟨m - 1, by simp at hm; omega⟩
    obtain ⟨l0, r0, e0, hl0⟩ := Ron.start x
    rw [readUntilEof_more (by
      rw [e0] at h
      have : st.tok = rtok l0 := h.tok
      rw [this]; exact ron_start_ne hl0)]
    exact Yields.bind (hr.1 st _ tail (ron_fits h2) h) fun s1 g1 =>
      Yields.bind (hr.2 s1 tail m (by simp at hm; omega) g1) fun s2 g2 => .pure g2
  | @words t' a b v ts rest vs h1 _ ih =>
    have := ht t' (by simp)
    subst this
    refine ((h1.reads_on (fl := fl)).and (ih fun u hu => ht u (by simp [hu]))).mono fun n hr st tail m hm h => ?_
    obtain ⟨m, rfl⟩ : ∃ k, m = k + 1 := ⟨m - 1, by simp at hm; omega⟩
    rw [readUntilEof_more (by
      have : st.tok = rtok (.word a) := h.tok
      rw [this]; exact ron_start_ne (.inl ⟨a, rfl⟩))]
    exact Yields.bind (hr.1 st _ tail h) fun s1 g1 => Yields.bind (hr.2 s1 tail m (by simp at hm; omega) g1) fun s2 g2 => .pure g2

theorem ronUntilEof_of_row (hk : LawfulKeys env) {t ls vs txt} {r} (hs : Stream (rNext fl) rtok txt (ls ++ [.eof]) r)
    (h : RonRow env fl (List.replicate vs.length t) ls vs) : DecodesAll (fun n => ronUntilEof env fl n t txt) vs := by
  obtain ⟨s1, e1, h1⟩ := stream_start (col := rcol) hs
  obtain ⟨N, hr⟩ := h.reads_until hk fun u hu => (List.mem_replicate.1 hu).2
  refine ⟨N + vs.length + 1, fun n hn => ?_⟩
  obtain ⟨s2, e2, h2⟩ := hr n (by omega) s1 r n (by simp; omega) h1
  refine ⟨s2, ?_, h2.tok⟩
  show (rNext fl >>= fun _ => readUntilEof (deRon env fl n t) n : PM (List Val)) (initSt rcol txt) = _
  rw [M.bind_ok e1]; exact e2

/-! ## Backwards -/

theorem rscan_word_next {a txt' r} (h : RScan fl [.word a] txt' r) {s : PSt} (hs : s.cur.txt = txt') :
    ∃ s1, rNext fl s = .ok () s1 ∧ AtL rtok (RLex fl) s1 (.word a) := by
  obtain ⟨s1, e1, h1⟩ := h.stream.start hs
  exact ⟨s1, e1, h1.tok, h1.sb, h1.ib, _, _, .inr h⟩

/-- One value. -/
theorem ron_step (hfl : FloatLaws fl) (hk : LawfulKeys env) (hd : DistinctProg env) {n t s v s' txt l}
    (hl : AtL rtok (RLex fl) s l) (hx : RLex fl txt l s.cur.txt) (e : deRon env fl n t s = .ok v s') :
    ∃ ls txt' l', RScan fl ls txt txt' ∧ AtL rtok (RLex fl) s' l' ∧ RLex fl txt' l' s'.cur.txt ∧ (∃ r, ls = l :: r) ∧
      ((∃ x : RTree, ls = x.lexemes ∧ RonMeans env fl t x v ∧ ¬ ((∃ a, ls = [.word a]) ∧ ∃ b, l' = .word b)) ∨
        ∃ a b, ls = [.word a] ∧ l' = .word b ∧ WordPair env t a b v) := by
  have pair : ∀ a b l', RTr fl s [.word a] s' → AtL rtok (RLex fl) s' l' → l' = .word b → WordPair env t a b v := by
    rintro a b l' tr h1 rfl
    cases tr with
    | @cons _ _ l2 _ _ _ g1 g2 g3 g4 =>
      cases g4
      have : l2 = .word b := g3.eq.trans h1.eq.symm
      subst this
      rcases g2 with ⟨g2, _⟩ | g2
      · cases g2
      · obtain ⟨s1, e1, k1⟩ := rscan_word_next g2 rfl
        exact deRon_words hfl hk hd n g1 e1 k1 e
  obtain ⟨_, _, ⟨ls, ⟨x, rfl, hs⟩, tr⟩ | ⟨⟨w, w', q1, q2, tr⟩, _⟩⟩ := deRon_inv hfl hk hd n t s v s' ⟨l, hl⟩ e
  · obtain ⟨txt', l', g1, g2, g3⟩ := RTr.scan tr hl hx x.eof_not_mem
    refine ⟨_, txt', l', g1, g2, g3, ?_, ?_⟩
    · obtain ⟨l0, r0, e0, _⟩ := Ron.start x
      rw [e0] at tr ⊢
      cases tr with
      | cons k1 _ _ _ => exact ⟨r0, by rw [k1.eq.trans hl.eq.symm]⟩
    · by_cases hc : (∃ a, x.lexemes = [.word a]) ∧ ∃ b, l' = .word b
      · obtain ⟨⟨a, ea⟩, b, rfl⟩ := hc
        rw [ea] at tr
        exact .inr ⟨a, b, ea, rfl, pair a b _ tr g2 rfl⟩
      · exact .inl ⟨x, rfl, hs, hc⟩
  · obtain ⟨txt', l', g1, g2, g3⟩ := RTr.scan tr hl hx (by simp)
    have : l' = .word w' := g2.eq.trans q2.eq.symm
    refine ⟨_, txt', l', g1, g2, g3, ⟨[], by rw [q1.eq.trans hl.eq.symm]⟩, .inr ⟨w, w', rfl, this, pair w w' l' tr g2 this⟩⟩

theorem rscanEnd_no_word {txt a r} (h : RScanEnd txt) (h' : RScan fl [.word a] txt r) : False := by
  obtain ⟨r', h⟩ := Ron.rscanEnd (fl := fl) h
  have hs : Stream (rNext fl) rtok txt [.eof] r' := .cons h .nil
  obtain ⟨s1, e1, h1⟩ := hs.start (initSt_txt rcol txt)
  obtain ⟨s2, e2, h2⟩ := h'.stream.start (initSt_txt rcol txt)
  rw [e1] at e2
  injection e2 with _ e2
  subst e2
  have a1 : s1.tok = .eof := h1.tok
  have a2 : s1.tok = rtok (.word a) := h2.tok
  rw [a1] at a2
  exact ron_start_ne (.inl ⟨a, rfl⟩) a2.symm

theorem ronEach_sound (hfl : FloatLaws fl) (hk : LawfulKeys env) (hd : DistinctProg env) {n : Nat} (ts : List Ty) : ∀ {s vs s' txt l},
    AtL rtok (RLex fl) s l → RLex fl txt l s.cur.txt → readEach (deRon env fl n) ts s = .ok vs s' → s'.tok = .eof →
    ∃ ls, RWhole fl ls txt ∧ RonRow env fl ts ls vs ∧ (∀ x, ls.head? = some x → x = l) := by
  induction ts with
  | nil =>
    intro s vs s' txt l hl hx e he
    injection e with e1 e2
    subst e1 e2
    refine ⟨[], ⟨txt, .nil, ?_⟩, .nil, by simp⟩
    have ht := hl.tok
    rw [he] at ht
    have hx' := hx
    rcases hx with ⟨_, h⟩ | h
    · exact h
    · exfalso
      obtain rfl : l = .eof := by
        rcases hx'.cases with rfl | ⟨t, rfl, hm⟩ | ⟨w, rfl⟩ | ⟨w, rfl⟩ | ⟨t, rfl, _, _⟩
        · rfl
        · simp only [List.mem_cons, List.not_mem_nil, or_false] at hm
          rcases hm with rfl | rfl | rfl | rfl | rfl | rfl | rfl | rfl <;> cases ht
        · exact absurd ht.symm (ron_start_ne (.inl ⟨w, rfl⟩))
        · cases ht
        · cases t <;> cases ht
      cases h with
      | cons _ h _ _ =>
        rcases h with h | ⟨_, h, _⟩ <;> cases h
  | cons t ts ih =>
    intro s vs s' txt l hl hx e he
    obtain ⟨v, s1, e1, e⟩ := M.bind_eq_ok.1 e
    obtain ⟨vs', s2, e2, e⟩ := M.bind_eq_ok.1 e
    injection e with e3 e4
    subst e3 e4
    obtain ⟨ls, txt', l', g1, g2, g3, ⟨r, g4⟩, g5⟩ := ron_step hfl hk hd hl hx e1
    obtain ⟨ls', ⟨tl, k1, k1'⟩, k2, k3⟩ := ih g2 g3 e2 he
    refine ⟨ls ++ ls', ⟨tl, g1.append k1, k1'⟩, ?_, by subst g4; simp⟩
    rcases g5 with ⟨x, rfl, h1, h2⟩ | ⟨a, b, rfl, rfl, h1⟩
    · refine .cons h1 ?_ k2
      rintro ⟨ha, b, hb⟩
      exact h2 ⟨ha, b, (k3 _ hb).symm⟩
    · cases ls' with
      | nil =>
        exfalso
        rcases g3 with ⟨g3, _⟩ | g3
        · cases g3
        · cases k1
          exact rscanEnd_no_word k1' g3
      | cons x ls' =>
        have := k3 x rfl
        subst this
        exact .words h1 k2

theorem ron_first (hfl : FloatLaws fl) {txt : List Char} {s1 : PSt} (e1 : rNext fl (initSt rcol txt) = .ok () s1) :
    ∃ l, AtL rtok (RLex fl) s1 l ∧ RLex fl txt l s1.cur.txt := by
  obtain ⟨l1, h1, h2, h3, h4⟩ := rNext_sound hfl e1
  rw [initSt_txt] at h1
  exact ⟨l1, ⟨h2, fun b hb => by rw [h3, hb]; rfl, fun b hb => by rw [h4, hb]; rfl, _, _, h1⟩, h1⟩

end NS
