import Verif.Lemmas.RonSound4
/-! The texts that `deserialize_ron` accepts, and what it reads from them. -/
namespace NS
variable {fl : FloatOps} {env : Env}

/-! ## Two words are read -/

theorem WordPair.reads {t w w' v} (h : WordPair env t w w' v) :
    Ev fun n => ∀ st rest tail, RPos fl st (.word w :: .word w' :: rest) tail → Yields (deRon env fl n t st) v fun _ => True := by
  induction h with
  | true =>
    refine Ron.Ev.succ (.of fun n st rest tail h => Yields.get ?_)
    rw [show st.tok = .bool Bool.true from h.tok]
    exact Yields.bind (h.next' (by simp)) fun s2 h2 => .pure trivial
  | false =>
    refine Ron.Ev.succ (.of fun n st rest tail h => Yields.get ?_)
    rw [show st.tok = .bool Bool.false from h.tok]
    exact Yields.bind (h.next' (by simp)) fun s2 h2 => .pure trivial
  | epoch =>
    refine Ron.Ev.succ (.of fun n st rest tail h => Yields.get ?_)
    rw [if_pos (Ron.atNone_true h)]
    exact Yields.bind (h.next' (by simp)) fun s2 h2 => ⟨s2, rfl, trivial⟩
  | none =>
    refine Ron.Ev.succ (.of fun n st rest tail h => Yields.get ?_)
    rw [if_pos (Ron.atNone_true h)]
    exact Yields.bind (h.next' (by simp)) fun s2 h2 => .pure trivial
  | some hw _ ih =>
    refine Ron.Ev.succ (ih.mono fun n hr st rest tail h => Yields.get ?_)
    rw [if_neg (by rw [Ron.atNone_false (x := .word _) hw (by rw [RTree.lexemes]; exact h)]; simp)]
    exact Yields.bind (hr st rest tail h) fun s2 h2 => .pure trivial
  | box _ ih =>
    refine Ron.Ev.succ (ih.mono fun n hr st rest tail h => ?_)
    exact Yields.bind (hr st rest tail h) fun s2 h2 => .pure trivial
  | @variant i vars w w' j var hd hnb hj hname hfirst hsh =>
    refine Ron.Ev.succ (.of fun n st rest tail h => ?_)
    rw [deRon]
    simp only [hd]
    have ht : st.tok = .ident := by rw [h.tok]; simp [rtok, hnb.1, hnb.2]
    unfold deRonEnum
    refine Yields.bind (a := ()) (Q := fun s => s.identbuf = w') ?_ fun s1 h1 => Yields.get ?_
    · rw [expectTok_ok ht]
      obtain ⟨s1, e1, h1, _, h3⟩ := h.next
      exact ⟨s1, e1, h3⟩
    · have hfind : vars.findIdx? (fun v => v.name == w') = Option.some j := by
        have hjl : j < vars.length := by
          rcases Nat.lt_or_ge j vars.length with h | h
          · exact h
          · rw [List.getElem?_eq_none h] at hj; cases hj
        rw [List.findIdx?_eq_some_iff_getElem]
        refine ⟨hjl, ?_, fun i hi => ?_⟩
        · rw [List.getElem?_eq_getElem hjl] at hj; injection hj with hj
          simp [hj, hname]
        · have := hfirst i hi _ (List.getElem?_eq_getElem (by omega))
          simpa using this
      have hget : vars.getD j { name := [], shape := .unit } = var := by simp [List.getD, hj]
      rw [h1, hfind]
      simp only [hget, hsh]
      exact Yields.bind (a := []) (Q := fun _ => True) (.pure trivial) fun s2 h2 => .pure trivial

/-! ## The two directions -/

theorem ron_decodes_of_begins (hk : LawfulKeys env) {t x v txt} (hx : RBegins fl x.lexemes txt) (h : RonMeans env fl t x v) :
    Decodes (fun n => deserializeRon env fl n t txt) v := by
  have key : ∃ rest tail, Stream (rNext fl) rtok txt (x.lexemes ++ rest) tail ∧ Ron.Fits x.lexemes rest := by
    rcases hx with hx | ⟨l, r, hx, hne⟩
    · obtain ⟨r, hs⟩ := RWhole.stream hx
      exact ⟨[.eof], r, hs, by simp, fun w _ l r e => by simp at e; rw [← e.1]; rfl⟩
    · refine ⟨[l], r, hx.stream, by simp, fun w e l' r e' => ?_⟩
      simp at e'
      rw [← e'.1]
      cases l with
      | word w' => exact absurd ⟨⟨w, e⟩, w', rfl⟩ hne
      | _ => rfl
  obtain ⟨rest, tail, hs, hf⟩ := key
  obtain ⟨n0, hr⟩ := Ron.reads (fl := fl) hk h
  refine ⟨n0, fun n hn => ?_⟩
  obtain ⟨l, ls, el, _⟩ := Ron.start x
  obtain ⟨s1, e1, h1⟩ : ∃ s1, rNext fl (initSt rcol txt) = .ok () s1 ∧ RPos fl s1 (x.lexemes ++ rest) tail := by
    rw [el] at hs ⊢
    exact hs.start (initSt_txt _ _)
  obtain ⟨s2, e2, _⟩ := hr n hn s1 rest tail hf h1
  refine ⟨s2, ?_⟩
  show (rNext fl >>= fun _ => deRon env fl n t : PM Val) (initSt rcol txt) = _
  rw [M.bind_ok e1]; exact e2

theorem ron_decodes_of_words {t w w' v txt rest} (hx : RScan fl [.word w, .word w'] txt rest) (h : WordPair env t w w' v) :
    Decodes (fun n => deserializeRon env fl n t txt) v := by
  obtain ⟨n0, hr⟩ := h.reads (fl := fl)
  refine ⟨n0, fun n hn => ?_⟩
  obtain ⟨s1, e1, h1⟩ := hx.stream.start (initSt_txt rcol txt)
  obtain ⟨s2, e2, _⟩ := hr n hn s1 [] rest h1
  refine ⟨s2, ?_⟩
  show (rNext fl >>= fun _ => deRon env fl n t : PM Val) (initSt rcol txt) = _
  rw [M.bind_ok e1]; exact e2

/-- Whatever is read is there. -/
theorem ron_sound (hfl : FloatLaws fl) (hk : LawfulKeys env) (hd : DistinctProg env) {n t txt v s'}
    (e : deserializeRon env fl n t txt = .ok v s') :
    (∃ x, RBegins fl x.lexemes txt ∧ RonMeans env fl t x v) ∨
    ∃ w w' rest, RScan fl [.word w, .word w'] txt rest ∧ WordPair env t w w' v := by
  obtain ⟨_, s1, e1, ed⟩ := M.bind_eq_ok.1 (show (rNext fl >>= fun _ => deRon env fl n t : PM Val) (initSt rcol txt) = _ from e)
  obtain ⟨l1, h1, h2, h3, h4⟩ := rNext_sound hfl e1
  rw [initSt_txt] at h1
  have at1 : AtL rtok (RLex fl) s1 l1 := ⟨h2, fun b hb => by rw [h3, hb]; rfl, fun b hb => by rw [h4, hb]; rfl, _, _, h1⟩
  by_cases hw : ∃ w w' rest, RScan fl [.word w, .word w'] txt rest
  · obtain ⟨w, w', rest, hw⟩ := hw
    refine .inr ⟨w, w', rest, hw, ?_⟩
    obtain ⟨s1', e1', g1⟩ := hw.stream.start (initSt_txt rcol txt)
    rw [e1] at e1'; injection e1' with _ e1'; subst e1'
    obtain ⟨s2, e2, g2, _⟩ := g1.next
    cases hw with
    | cons a1 a2 a3 a4 =>
      have r1 := RScan.cons a1 a2 a3 .nil
      have r2 : ∃ b c, RScan fl [.word w'] b c := ⟨_, _, a4⟩
      obtain ⟨_, _, r2⟩ := r2
      exact deRon_words hfl hk hd n ⟨g1.tok, g1.sb, g1.ib, _, _, .inr r1⟩ e2 ⟨g2.tok, g2.sb, g2.ib, _, _, .inr r2⟩ ed
  · left
    obtain ⟨_, _, ⟨_, ⟨x, rfl, hx⟩, tr⟩ | ⟨⟨w, w', q1, q2, tr⟩, _⟩⟩ := deRon_inv hfl hk hd n t s1 v s' ⟨l1, at1⟩ ed
    · obtain ⟨txt', l', g1, g2, g3⟩ := RTr.scan tr at1 h1 x.eof_not_mem
      refine ⟨x, ?_, hx⟩
      rcases g3 with ⟨_, g3⟩ | g3
      · exact .inl ⟨txt', g1, g3⟩
      · refine .inr ⟨l', _, g1.append g3, ?_⟩
        rintro ⟨⟨w, hw1⟩, w', rfl⟩
        rw [hw1] at g1
        exact hw ⟨w, w', _, g1.append g3⟩
    · exfalso
      obtain ⟨txt', l', g1, g2, g3⟩ := RTr.scan tr at1 h1 (by simp)
      have : l' = .word w' := g2.eq.trans q2.eq.symm
      subst this
      rcases g3 with ⟨g3, _⟩ | g3
      · cases g3
      · exact hw ⟨w, w', _, g1.append g3⟩

end NS
