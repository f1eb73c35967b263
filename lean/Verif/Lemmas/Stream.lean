import Verif.Spec.Stream
import Verif.Props.JsonWhole
/-! Reading several values in a row. -/
namespace NS
variable {fl : FloatOps} {env : Env}

theorem Yields.mono {α : Type} {r : Out PErr PSt α} {a : α} {Q Q' : PSt → Prop} (h : Yields r a Q) (hq : ∀ s, Q s → Q' s) : Yields r a Q' := by
  obtain ⟨s, e, h⟩ := h
  exact ⟨s, e, hq s h⟩

/-! ## JSON, forwards -/

theorem StrPair.reads_on (hdp : DistinctProg env) {t a b v} (h : StrPair env t a b v) :
    Ev fun n => ∀ st rest tail, JPos fl st (.str a :: .str b :: rest) tail →
      Yields (deJson env fl n t st) v fun s => JPos fl s (.str b :: rest) tail := by
  induction h with
  | str =>
    refine Ron.Ev.succ (.of fun n st rest tail h => ?_)
    exact Yields.bind (JRead.deStr_ok h (by simp)) fun s2 h2 => .pure h2
  | some _ ih =>
    refine Ron.Ev.succ (ih.mono fun n hr st rest tail h => Yields.get ?_)
    rw [if_neg (by rw [show st.tok = .str from h.tok]; simp)]
    exact Yields.bind (hr st rest tail h) fun s2 h2 => .pure h2
  | box _ ih =>
    refine Ron.Ev.succ (ih.mono fun n hr st rest tail h => ?_)
    exact Yields.bind (hr st rest tail h) fun s2 h2 => .pure h2
  | transparent hd _ ih =>
    refine Ron.Ev.succ (ih.mono fun n hr st rest tail h => ?_)
    rw [deJson]
    simp only [hd, deJsonTupleStruct]
    exact Yields.bind (hr st rest tail h) fun s2 h2 => .pure h2
  | proxied hd _ ih =>
    refine Ron.Ev.succ (ih.mono fun n hr st rest tail h => ?_)
    rw [deJson]
    simp only [hd]
    exact Yields.bind (hr st rest tail h) fun s2 h2 => .pure h2
  | @variant i vars j var a hd hj hs =>
    refine Ron.Ev.succ (.of fun n st rest tail h => ?_)
    rw [deJson]
    simp only [hd]
    have ht : st.tok = .str := h.tok
    refine Yields.get ?_
    rw [if_neg (by rw [ht]; simp), if_pos ⟨ht, JRead.variant_any hj (by simp [Variant.isUnit, hs])⟩]
    refine Yields.bind (a := ()) (Q := fun s => JPos fl s (.str var.jsonName :: rest) tail ∧ s.strbuf = var.jsonName) ?_ fun s1 h1 => Yields.get ?_
    · rw [expectTok_ok ht]
      obtain ⟨s1, e1, h1, h3, _⟩ := h.next
      exact ⟨s1, e1, h1, h3⟩
    · rw [h1.2, (findVariant_iff (hdp.variants i vars hd)).2 ⟨var, hj, by simp [hs], rfl⟩]
      exact .pure h1.1

theorem JsonRow.reads (hfl : FloatLaws fl) (hk : LawfulKeys env) (hdp : DistinctProg env) {ts ls vs} (h : JsonRow env fl ts ls vs) :
    Ev fun n => ∀ st tail, JPos fl st (ls ++ [.eof]) tail →
      Yields (readEach (deJson env fl n) ts st) vs fun s => JPos fl s [.eof] tail := by
  induction h with
  | nil => exact .of fun n st tail h => .pure h
  | @cons t ls v ts rest vs h1 h2 _ ih =>
    refine ((JRead.reads hfl hk hdp h1).and ih).mono fun n hr st tail h => ?_
    rw [List.append_assoc] at h
    refine Yields.bind (hr.1 st _ tail ⟨by simp, fun w e l r e' => ?_⟩ h) fun s1 g1 => ?_
    · cases rest with
      | nil => simp at e'; rw [← e'.1]; rfl
      | cons l' r' =>
        simp at e'
        obtain ⟨rfl, _⟩ := e'
        cases l' with
        | str b => exact absurd ⟨⟨w, e⟩, b, rfl⟩ h2
        | _ => rfl
    · exact Yields.bind (hr.2 s1 tail g1) fun s2 g2 => .pure g2
  | strs h1 _ ih =>
    refine ((h1.reads_on (fl := fl) hdp).and ih).mono fun n hr st tail h => ?_
    exact Yields.bind (hr.1 st _ tail h) fun s1 g1 => Yields.bind (hr.2 s1 tail g1) fun s2 g2 => .pure g2

theorem stream_start {nx : PM Unit} {tk : Lexeme → Tok} {txt ls r col} (h : Stream nx tk txt (ls ++ [.eof]) r) :
    ∃ s1, nx (initSt col txt) = .ok () s1 ∧ Pos nx tk s1 (ls ++ [.eof]) r := by
  cases ls with
  | nil => exact h.start (initSt_txt _ _)
  | cons l ls => exact h.start (initSt_txt _ _)

theorem jsonEach_of_row (hfl : FloatLaws fl) (hk : LawfulKeys env) (hdp : DistinctProg env) {ts ls vs txt} {r} (hs : Stream (jNext fl) jtok txt (ls ++ [.eof]) r)
    (h : JsonRow env fl ts ls vs) : DecodesAll (fun n => jsonEach env fl n ts txt) vs := by
  obtain ⟨s1, e1, h1⟩ := stream_start (col := jcol) hs
  obtain ⟨N, hr⟩ := h.reads hfl hk hdp
  refine ⟨N, fun n hn => ?_⟩
  obtain ⟨s2, e2, h2⟩ := hr n hn s1 r h1
  refine ⟨s2, ?_, h2.tok⟩
  show (jNext fl >>= fun _ => readEach (deJson env fl n) ts : PM (List Val)) (initSt jcol txt) = _
  rw [M.bind_ok e1]; exact e2

theorem JsonRow.length {ts ls vs} (h : JsonRow env fl ts ls vs) : vs.length = ts.length := by
  induction h with
  | nil => rfl
  | cons _ _ _ ih => simp [ih]
  | strs _ _ ih => simp [ih]

theorem readUntilEof_end {rd : PM Val} {st : PSt} {n : Nat} (h : st.tok = .eof) : readUntilEof rd (n + 1) st = .ok [] st := by
  show (if st.tok = .eof then pure [] else rd >>= fun v => readUntilEof rd n >>= fun vs => pure (v :: vs) : PM (List Val)) st = _
  rw [if_pos h]; rfl

theorem readUntilEof_more {rd : PM Val} {st : PSt} {n : Nat} (h : st.tok ≠ .eof) : readUntilEof rd (n + 1) st =
    (rd >>= fun v => readUntilEof rd n >>= fun vs => pure (v :: vs) : PM (List Val)) st := by
  show (if st.tok = .eof then pure [] else rd >>= fun v => readUntilEof rd n >>= fun vs => pure (v :: vs) : PM (List Val)) st = _
  rw [if_neg h]

theorem JsonRow.reads_until (hfl : FloatLaws fl) (hk : LawfulKeys env) (hdp : DistinctProg env) {t ts ls vs} (h : JsonRow env fl ts ls vs)
    (ht : ∀ u ∈ ts, u = t) :
    Ev fun n => ∀ st tail m, ts.length < m → JPos fl st (ls ++ [.eof]) tail →
      Yields (readUntilEof (deJson env fl n t) m st) vs fun s => JPos fl s [.eof] tail := by
  induction h with
  | nil =>
    refine .of fun n st tail m hm h => ?_
    obtain ⟨m, rfl⟩ : ∃ k, m = k + 1 := ⟨m - 1, by simp at hm; omega⟩
    rw [readUntilEof_end (by exact h.tok)]
    exact ⟨st, rfl, h⟩
  | @cons t' ls v ts rest vs h1 h2 _ ih =>
    have := ht t' (by simp)
    subst this
    refine ((JRead.reads hfl hk hdp h1).and (ih fun u hu => ht u (by simp [hu]))).mono fun n hr st tail m hm h => ?_
    rw [List.append_assoc] at h
    obtain ⟨m, rfl⟩ : ∃ k, m = k + 1 := ⟨m - 1, by simp at hm; omega⟩
    obtain ⟨l0, r0, e0, hl0⟩ := h1.form.1
    rw [readUntilEof_more (by
      subst e0
      have : st.tok = jtok l0 := h.tok
      rw [this]; exact (startsValue_ne hl0).2.2.2.2)]
    refine Yields.bind (hr.1 st _ tail ⟨by simp, fun w e l r e' => ?_⟩ h) fun s1 g1 => ?_
    · cases rest with
      | nil => simp at e'; rw [← e'.1]; rfl
      | cons l' r' =>
        simp at e'
        obtain ⟨rfl, _⟩ := e'
        cases l' with
        | str b => exact absurd ⟨⟨w, e⟩, b, rfl⟩ h2
        | _ => rfl
    · exact Yields.bind (hr.2 s1 tail m (by simp at hm; omega) g1) fun s2 g2 => .pure g2
  | @strs t' a b v ts rest vs h1 _ ih =>
    have := ht t' (by simp)
    subst this
    refine ((h1.reads_on (fl := fl) hdp).and (ih fun u hu => ht u (by simp [hu]))).mono fun n hr st tail m hm h => ?_
    obtain ⟨m, rfl⟩ : ∃ k, m = k + 1 := ⟨m - 1, by simp at hm; omega⟩
    rw [readUntilEof_more (by rw [show st.tok = .str from h.tok]; simp)]
    exact Yields.bind (hr.1 st _ tail h) fun s1 g1 => Yields.bind (hr.2 s1 tail m (by simp at hm; omega) g1) fun s2 g2 => .pure g2

theorem jsonUntilEof_of_row (hfl : FloatLaws fl) (hk : LawfulKeys env) (hdp : DistinctProg env) {t ls vs txt} {r} (hs : Stream (jNext fl) jtok txt (ls ++ [.eof]) r)
    (h : JsonRow env fl (List.replicate vs.length t) ls vs) : DecodesAll (fun n => jsonUntilEof env fl n t txt) vs := by
  obtain ⟨s1, e1, h1⟩ := stream_start (col := jcol) hs
  obtain ⟨N, hr⟩ := h.reads_until hfl hk hdp fun u hu => (List.mem_replicate.1 hu).2
  refine ⟨N + vs.length + 1, fun n hn => ?_⟩
  obtain ⟨s2, e2, h2⟩ := hr n (by omega) s1 r n (by simp; omega) h1
  refine ⟨s2, ?_, h2.tok⟩
  show (jNext fl >>= fun _ => readUntilEof (deJson env fl n t) n : PM (List Val)) (initSt jcol txt) = _
  rw [M.bind_ok e1]; exact e2

/-! ## JSON, backwards -/

theorem jscan_str_next {a txt' r} (h : JScan fl [.str a] txt' r) {s : PSt} (hs : s.cur.txt = txt') :
    ∃ s1, jNext fl s = .ok () s1 ∧ AtL jtok (JLex fl) s1 (.str a) := by
  obtain ⟨s1, e1, h1⟩ := h.stream.start hs
  exact ⟨s1, e1, h1.tok, h1.sb, h1.ib, _, _, .inr h⟩

/-- One value. -/
theorem json_step (hfl : FloatLaws fl) (hk : LawfulKeys env) (hd : DistinctProg env) {n t s v s' txt l}
    (hl : AtL jtok (JLex fl) s l) (hx : JLex fl txt l s.cur.txt) (e : deJson env fl n t s = .ok v s') :
    ∃ ls txt' l', JScan fl ls txt txt' ∧ AtL jtok (JLex fl) s' l' ∧ JLex fl txt' l' s'.cur.txt ∧ (∃ r, ls = l :: r) ∧
      ((JsonSays env fl t ls v ∧ ¬ ((∃ a, ls = [.str a]) ∧ ∃ b, l' = .str b)) ∨
        ∃ a b, ls = [.str a] ∧ l' = .str b ∧ StrPair env t a b v) := by
  have pair : ∀ a b l', JTr fl s [.str a] s' → AtL jtok (JLex fl) s' l' → l' = .str b → StrPair env t a b v := by
    rintro a b l' tr h1 rfl
    cases tr with
    | @cons _ _ l2 _ _ _ g1 g2 g3 g4 =>
      cases g4
      have : l2 = .str b := g3.jeq.trans h1.jeq.symm
      subst this
      rcases g2 with ⟨g2, _⟩ | g2
      · cases g2
      · obtain ⟨s1, e1, k1⟩ := jscan_str_next g2 rfl
        exact deJson_strs hfl hk hd n g1 e1 k1 e
  obtain ⟨_, _, ⟨ls, hs, tr⟩ | ⟨⟨w, w', q1, q2, tr⟩, _⟩⟩ := deJson_inv hfl hk hd n t s v s' ⟨l, hl⟩ e
  · obtain ⟨txt', l', g1, g2, g3⟩ := JTr.scan tr hl hx (fun hm => hs.form.2 (JTr.eof_last tr hl hx hm))
    refine ⟨ls, txt', l', g1, g2, g3, ?_, ?_⟩
    · obtain ⟨l0, r0, rfl, _⟩ := hs.form.1
      cases tr with
      | cons k1 _ _ _ => exact ⟨r0, by rw [k1.jeq.trans hl.jeq.symm]⟩
    · by_cases hc : (∃ a, ls = [.str a]) ∧ ∃ b, l' = .str b
      · obtain ⟨⟨a, rfl⟩, b, rfl⟩ := hc
        exact .inr ⟨a, b, rfl, rfl, pair a b _ tr g2 rfl⟩
      · exact .inl ⟨hs, hc⟩
  · obtain ⟨txt', l', g1, g2, g3⟩ := JTr.scan tr hl hx (by simp)
    have : l' = .str w' := g2.jeq.trans q2.jeq.symm
    refine ⟨_, txt', l', g1, g2, g3, ⟨[], by rw [q1.jeq.trans hl.jeq.symm]⟩, .inr ⟨w, w', rfl, this, pair w w' l' tr g2 this⟩⟩

theorem jsonEach_sound (hfl : FloatLaws fl) (hk : LawfulKeys env) (hd : DistinctProg env) {n : Nat} (ts : List Ty) : ∀ {s vs s' txt l},
    AtL jtok (JLex fl) s l → JLex fl txt l s.cur.txt → readEach (deJson env fl n) ts s = .ok vs s' → s'.tok = .eof →
    ∃ ls, JWhole fl ls txt ∧ JsonRow env fl ts ls vs ∧ (∀ x, ls.head? = some x → x = l) := by
  induction ts with
  | nil =>
    intro s vs s' txt l hl hx e he
    injection e with e1 e2
    subst e1 e2
    refine ⟨[], ⟨txt, .nil, ?_⟩, .nil, by simp⟩
    have ht := hl.tok
    rw [he] at ht
    rcases hx with ⟨_, h, _⟩ | h
    · exact h
    · exfalso
      obtain rfl : l = .eof := by
        rcases (show JLex fl txt l s.cur.txt from .inr h).cases with rfl | ⟨t, rfl, hm⟩ | (rfl | rfl | rfl) | ⟨w, rfl⟩ | ⟨t, rfl, _, _⟩
        · rfl
        · simp only [List.mem_cons, List.not_mem_nil, or_false] at hm
          rcases hm with rfl | rfl | rfl | rfl | rfl | rfl <;> cases ht
        · simp [jtok] at ht
        · simp [jtok] at ht
        · simp [jtok] at ht
        · cases ht
        · cases t <;> cases ht
      cases h with
      | cons _ h _ _ => cases h
  | cons t ts ih =>
    intro s vs s' txt l hl hx e he
    obtain ⟨v, s1, e1, e⟩ := M.bind_eq_ok.1 e
    obtain ⟨vs', s2, e2, e⟩ := M.bind_eq_ok.1 e
    injection e with e3 e4
    subst e3 e4
    obtain ⟨ls, txt', l', g1, g2, g3, ⟨r, g4⟩, g5⟩ := json_step hfl hk hd hl hx e1
    obtain ⟨ls', ⟨tl, k1, k1'⟩, k2, k3⟩ := ih g2 g3 e2 he
    refine ⟨ls ++ ls', ⟨tl, g1.append k1, k1'⟩, ?_, by subst g4; simp⟩
    rcases g5 with ⟨h1, h2⟩ | ⟨a, b, rfl, rfl, h1⟩
    · refine .cons h1 ?_ k2
      rintro ⟨ha, b, hb⟩
      exact h2 ⟨ha, b, (k3 _ hb).symm⟩
    · cases ls' with
      | nil =>
        exfalso
        rcases g3 with ⟨g3, _⟩ | g3
        · cases g3
        · cases k1
          exact JScanEnd.no_scan k1' g3
      | cons x ls' =>
        have := k3 x rfl
        subst this
        exact .strs h1 k2

theorem readEach_of_until {rd : Ty → PM Val} {t : Ty} (n : Nat) : ∀ {s vs s'}, readUntilEof (rd t) n s = .ok vs s' →
    readEach rd (List.replicate vs.length t) s = .ok vs s' ∧ s'.tok = .eof := by
  induction n with
  | zero => intro s vs s' e; cases e
  | succ n ih =>
    intro s vs s' e
    by_cases h : s.tok = .eof
    · rw [readUntilEof_end h] at e
      injection e with e1 e2
      subst e1 e2
      exact ⟨rfl, h⟩
    · rw [readUntilEof_more h] at e
      obtain ⟨v, s1, e1, e⟩ := M.bind_eq_ok.1 e
      obtain ⟨vs', s2, e2, e⟩ := M.bind_eq_ok.1 e
      injection e with e3 e4
      subst e3 e4
      obtain ⟨h1, h2⟩ := ih e2
      refine ⟨?_, h2⟩
      show (rd t >>= fun v => readEach rd (List.replicate vs'.length t) >>= fun vs => pure (v :: vs) : PM _) s = _
      rw [M.bind_ok e1, M.bind_ok h1]
      rfl

theorem json_first (hfl : FloatLaws fl) {txt : List Char} {s1 : PSt} (e1 : jNext fl (initSt jcol txt) = .ok () s1) :
    ∃ l, AtL jtok (JLex fl) s1 l ∧ JLex fl txt l s1.cur.txt := by
  obtain ⟨l1, h1, h2, h3, h4⟩ := jNext_sound' hfl e1
  rw [initSt_txt] at h1
  exact ⟨l1, ⟨h2, fun b hb => by rw [h3, hb]; rfl, fun b hb => by rw [h4, hb]; rfl, _, _, h1⟩, h1⟩

end NS
