import Verif.Lemmas.JsonRead2
/-! The texts that `deserialize_json` accepts, and what it reads from them. -/
namespace NS
variable {fl : FloatOps} {env : Env}

/-! ## The form of values -/

theorem inBlocks_form (tr xs) : Starts (inBlocks tr xs) ∧ (inBlocks tr xs).getLast? ≠ some .eof := by
  refine ⟨⟨_, _, rfl, rfl⟩, ?_⟩
  unfold inBlocks
  rw [← List.cons_append, List.getLast?_concat]
  simp

theorem inCurlies_form (tr xs) : Starts (inCurlies tr xs) ∧ (inCurlies tr xs).getLast? ≠ some .eof := by
  refine ⟨⟨_, _, rfl, rfl⟩, ?_⟩
  unfold inCurlies
  rw [← List.cons_append, List.getLast?_concat]
  simp

theorem JsonSays.form {t ls v} (h : JsonSays env fl t ls v) : Starts ls ∧ ls.getLast? ≠ Option.some .eof := by
  have one : ∀ {l : Lexeme}, l.startsValue = Bool.true → Starts [l] ∧ [l].getLast? ≠ Option.some .eof := by
    intro l hl
    refine ⟨⟨l, [], rfl, hl⟩, ?_⟩
    rw [List.getLast?_singleton]
    intro e; injection e with e; subst e; cases hl
  induction h with
  | unit | true | false | int | intWrap | f32 | f64 | str | epoch | none | variant => exact one rfl
  | some _ _ ih => exact ih
  | box _ ih => exact ih
  | transparent _ _ ih => exact ih
  | proxied _ _ ih => exact ih
  | dur => exact inCurlies_form _ _
  | time => exact inCurlies_form _ _
  | vec => exact inBlocks_form _ _
  | linked => exact inBlocks_form _ _
  | hset => exact inBlocks_form _ _
  | bset => exact inBlocks_form _ _
  | array => exact inBlocks_form _ _
  | pair => exact inBlocks_form _ _
  | triple => exact inBlocks_form _ _
  | quad => exact inBlocks_form _ _
  | hmap => exact inCurlies_form _ _
  | bmap => exact inCurlies_form _ _
  | struct => exact inCurlies_form _ _
  | noFields => exact inCurlies_form _ _
  | newtype => exact inBlocks_form _ _
  | tupleStruct => exact inBlocks_form _ _
  | tupleVariant => exact inCurlies_form _ _
  | structVariant => exact inCurlies_form _ _

/-! ## Reading -/

namespace JRead

theorem null_iff {l : Lexeme} : jtok l = .null ↔ l = .word ['n', 'u', 'l', 'l'] ∨ l = .punct .null := by
  constructor
  · intro h
    cases l with
    | punct t => exact .inr (by rw [show t = .null from h])
    | num t => cases t <;> simp [jtok, Num.tok] at h
    | str => simp [jtok] at h
    | eof => simp [jtok] at h
    | word w =>
      unfold jtok at h
      dsimp only at h
      by_cases w1 : w = ['t', 'r', 'u', 'e']
      · rw [if_pos w1] at h; cases h
      · rw [if_neg w1] at h
        by_cases w2 : w = ['f', 'a', 'l', 's', 'e']
        · rw [if_pos w2] at h; cases h
        · rw [if_neg w2] at h
          by_cases w3 : w = ['n', 'u', 'l', 'l']
          · rw [w3]; exact .inl rfl
          · rw [if_neg w3] at h; cases h
  · rintro (rfl | rfl)
    · simp [jtok]
    · rfl

theorem not_null {st ls rest tail} (hs : Starts ls) (hx : ls.head? ≠ some (.word ['n', 'u', 'l', 'l']))
    (h : JPos fl st (ls ++ rest) tail) : st.tok ≠ .null := by
  obtain ⟨l, r, rfl, hl⟩ := hs
  intro e
  rcases null_iff.1 ((show st.tok = jtok l from h.tok).symm.trans e) with rfl | rfl
  · exact hx rfl
  · cases hl

/-- Reading the lexemes gives what they say. -/
theorem reads (hfl : FloatLaws fl) (hkeys : LawfulKeys env) (hdp : DistinctProg env) {t ls v} (h : JsonSays env fl t ls v) :
    Ev fun n => Reads fl (deJson env fl n t) ls v := by
  have foldSnoc : ∀ (l acc : List Val), l.foldl (fun acc v => acc ++ [v]) acc = acc ++ l := by
    intro l
    induction l with
    | nil => intro acc; simp
    | cons a l ih => intro acc; simp [ih]
  induction h with
  | unit =>
    refine Ron.Ev.succ (.of fun n => ?_)
    intro st rest tail hf h
    exact Yields.bind (expect h rfl hf.ne) fun s2 h2 => .pure h2
  | true =>
    refine Ron.Ev.succ (.of fun n => ?_)
    intro st rest tail hf h
    refine Yields.get ?_
    rw [show st.tok = .bool Bool.true from h.tok]
    exact Yields.bind (h.next' hf.ne) fun s2 h2 => .pure h2
  | false =>
    refine Ron.Ev.succ (.of fun n => ?_)
    intro st rest tail hf h
    refine Yields.get ?_
    rw [show st.tok = .bool Bool.false from h.tok]
    exact Yields.bind (h.next' hf.ne) fun s2 h2 => .pure h2
  | int hk ht hi hu =>
    refine Ron.Ev.succ (.of fun n => ?_)
    intro st rest tail hf h
    exact deInt_ok h hf.ne hk ht hi hu
  | intWrap hk hs h1 h2 hi hm =>
    refine Ron.Ev.succ (.of fun n => ?_)
    intro st rest tail hf h
    exact deInt_wrap_ok h hf.ne hk hs h1 h2 hi hm
  | f32 =>
    refine Ron.Ev.succ (.of fun n => ?_)
    intro st rest tail hf h
    refine Yields.bind ⟨st, asF64_ok h, rfl⟩ fun s hs => ?_
    subst hs
    exact Yields.bind (h.next' hf.ne) fun s2 h2 => .pure h2
  | f64 =>
    refine Ron.Ev.succ (.of fun n => ?_)
    intro st rest tail hf h
    refine Yields.bind ⟨st, asF64_ok h, rfl⟩ fun s hs => ?_
    subst hs
    exact Yields.bind (h.next' hf.ne) fun s2 h2 => .pure h2
  | str =>
    refine Ron.Ev.succ (.of fun n => ?_)
    intro st rest tail hf h
    exact Yields.bind (deStr_ok h hf.ne) fun s2 h2 => .pure h2
  | dur hm hn hs =>
    exact Ron.Ev.succ ((Ron.Ev.big 3).mono fun n hb => deDur_ok hm hn hs (by omega))
  | epoch =>
    refine Ron.Ev.succ (.of fun n => ?_)
    intro st rest tail hf h
    refine Yields.get ?_
    rw [if_pos (show st.tok = .null from h.tok)]
    exact Yields.bind (h.next' hf.ne) fun s2 h2 => ⟨s2, rfl, h2⟩
  | @time ms tr s ns hm hn hs =>
    refine Ron.Ev.succ ((Ron.Ev.big 3).mono fun n hb => ?_)
    intro st rest tail hf h
    refine Yields.get ?_
    rw [if_neg (not_null (inCurlies_form _ _).1 (by simp [inCurlies]) h)]
    refine Yields.bind (deDur_ok hm hn (by simp [u64Max]; omega) (by omega) st rest tail hf h) fun s2 h2 => ⟨s2, ?_, h2⟩
    show epochAt (.dur (s + ns / 1000000000) (ns % 1000000000)) s2 = _
    unfold epochAt
    simp only
    rw [if_pos hs]
    simp
  | none =>
    refine Ron.Ev.succ (.of fun n => ?_)
    intro st rest tail hf h
    refine Yields.get ?_
    rw [if_pos (show st.tok = .null from h.tok)]
    exact Yields.bind (h.next' hf.ne) fun s2 h2 => .pure h2
  | some hx hj ih =>
    refine Ron.Ev.succ (ih.mono fun n hr => ?_)
    intro st rest tail hf h
    refine Yields.get ?_
    rw [if_neg (not_null hj.form.1 hx h)]
    exact Yields.bind (hr st rest tail hf h) fun s2 h2 => .pure h2
  | vec ps hps ih =>
    refine Ron.Ev.succ (((Ev.list ps ih).and (Ron.Ev.big ps.length)).mono fun n hr => ?_)
    have := deSeq_reads (add := fun acc v => acc ++ [v]) ps (fun p hp => (hps p hp).form.1) hr.1 hr.2 (trail := by assumption)
    rw [foldSnoc] at this
    exact this
  | linked ps hps ih =>
    refine Ron.Ev.succ (((Ev.list ps ih).and (Ron.Ev.big ps.length)).mono fun n hr => ?_)
    have := deSeq_reads (add := fun acc v => acc ++ [v]) ps (fun p hp => (hps p hp).form.1) hr.1 hr.2 (trail := by assumption)
    rw [foldSnoc] at this
    exact this
  | hset ps hps ih =>
    rw [← hset_fold_firsts hkeys]
    exact Ron.Ev.succ (((Ev.list ps ih).and (Ron.Ev.big ps.length)).mono fun n hr => deSeq_reads ps (fun p hp => (hps p hp).form.1) hr.1 hr.2)
  | bset ps hps hr ih =>
    rw [← bset_fold_unique hkeys hr]
    exact Ron.Ev.succ (((Ev.list ps ih).and (Ron.Ev.big ps.length)).mono fun n hr => deSeq_reads ps (fun p hp => (hps p hp).form.1) hr.1 hr.2)
  | array ps hl _ ih =>
    subst hl
    refine Ron.Ev.succ ((Ev.list ps ih).mono fun n hr => ?_)
    intro st rest tail hf h
    unfold inBlocks at h
    simp only [List.cons_append, List.append_assoc, List.nil_append] at h
    refine Yields.bind (expect h rfl (by simp)) fun s1 h1 => ?_
    refine Yields.bind (repeat_ok ps hr s1 h1) fun s2 h2 => ?_
    exact Yields.bind (expect h2 rfl hf.ne) fun s3 h3 => .pure h3
  | pair ps hts _ ih =>
    exact Ron.Ev.succ ((Ev.list ps ih).mono fun n hr => deTuple_reads ps hts hr)
  | triple ps hts _ ih =>
    exact Ron.Ev.succ ((Ev.list ps ih).mono fun n hr => deTuple_reads ps hts hr)
  | quad ps hts _ ih =>
    exact Ron.Ev.succ ((Ev.list ps ih).mono fun n hr => deTuple_reads ps hts hr)
  | hmap ps hk hv hlw hr ihk ihv =>
    have hE : AllEntries (ps.map fun p => Val.entry p.1.2 p.2.2) := by
      intro w hw
      obtain ⟨p, _, rfl⟩ := List.mem_map.1 hw
      exact ⟨_, _, rfl⟩
    rw [← hmap_fold_unique hkeys hE hlw (by rw [hr, List.map_map]; rfl)]
    exact Ron.Ev.succ ((((Ev.list ps ihk).and (Ev.list ps ihv)).and (Ron.Ev.big ps.length)).mono fun n hr =>
      deMap_reads ps (fun p hp => (hk p hp).form.1) (fun p hp => (hv p hp).form.1) hr.1.1 hr.1.2 hr.2)
  | bmap ps hk hv hlw hr ihk ihv =>
    have hE : AllEntries (ps.map fun p => Val.entry p.1.2 p.2.2) := by
      intro w hw
      obtain ⟨p, _, rfl⟩ := List.mem_map.1 hw
      exact ⟨_, _, rfl⟩
    rw [← bmap_fold_unique hkeys hE hlw hr]
    exact Ron.Ev.succ ((((Ev.list ps ihk).and (Ev.list ps ihv)).and (Ron.Ev.big ps.length)).mono fun n hr =>
      deMap_reads ps (fun p hp => (hk p hp).form.1) (fun p hp => (hv p hp).form.1) hr.1.1 hr.1.2 hr.2)
  | box _ ih =>
    refine Ron.Ev.succ (ih.mono fun n hr => ?_)
    intro st rest tail hf h
    exact Yields.bind (hr st rest tail hf h) fun s2 h2 => .pure h2
  | @struct i fs cd nul vs tr ps hd hg hps hpo ih =>
    have ih' : Ev fun n => ∀ p ∈ ps, ∀ f ∈ fs, f.skip = Bool.false → f.jsonName = p.1 → Reads fl (deJson env fl n f.readTy) p.2.1 p.2.2 := by
      refine Ev.list ps fun p hp => Ev.list fs fun f hf => ?_
      by_cases h : f.skip = Bool.false ∧ f.jsonName = p.1
      · exact (ih p hp f hf h.1 h.2).mono fun n hr _ _ => hr
      · exact .of fun n h1 h2 => absurd ⟨h1, h2⟩ h
    refine Ron.Ev.succ (((ih'.and (Ron.Ev.big ps.length)).and (Ev.list ps fun p _ => Ron.Ev.big p.2.1.length)).mono fun n hr => ?_)
    intro st rest tail hf h
    rw [deJson]
    simp only [hd]
    exact Yields.bind (deJsonNamed_reads hfl ps (hdp.fields i fs cd nul hd) hg (fun p hp f hf h1 h2 => (hps p hp f hf h1 h2).form.1)
      hr.1.1 hpo hr.1.2 hr.2 st rest tail hf h) fun s2 h2 => .pure h2
  | @noFields i trans hd =>
    refine Ron.Ev.succ (.of fun n => ?_)
    intro st rest tail hf h
    rw [deJson]
    simp only [hd, deJsonTupleStruct]
    refine Yields.bind (expect h rfl (by simp)) fun s1 h1 => ?_
    exact Yields.bind (expect h1 rfl hf.ne) fun s2 h2 => .pure h2
  | @transparent i t ls v hd _ ih =>
    refine Ron.Ev.succ (ih.mono fun n hr => ?_)
    intro st rest tail hf h
    rw [deJson]
    simp only [hd, deJsonTupleStruct]
    exact Yields.bind (hr st rest tail hf h) fun s2 h2 => .pure h2
  | @newtype i t ls v hd hj ih =>
    refine Ron.Ev.succ (ih.mono fun n hr => ?_)
    intro st rest tail hf h
    rw [deJson]
    simp only [hd, deJsonTupleStruct]
    unfold inBlocks at h
    simp only [commaLexemes, List.cons_append, List.append_assoc, List.nil_append] at h
    refine Yields.bind (expect h rfl hj.form.1.ne) fun s1 h1 => ?_
    refine Yields.bind (hr s1 _ tail (fits ⟨_, _, rfl, by simp [IsFollow]⟩) h1) fun s2 h2 => ?_
    exact Yields.bind (expect h2 rfl hf.ne) fun s3 h3 => .pure h3
  | @tupleStruct i trans tr ps hd hl _ ih =>
    refine Ron.Ev.succ ((Ev.list ps ih).mono fun n hr => ?_)
    intro st rest tail hf h
    rw [deJson]
    simp only [hd]
    match ps, hl with
    | p :: q :: ps, _ => exact tys_reads Val.struct (p :: q :: ps) hr st rest tail hf h
  | @variant i vars j var hd hj hs =>
    refine Ron.Ev.succ (.of fun n => ?_)
    intro st rest tail hf h
    rw [deJson]
    simp only [hd]
    exact deJsonEnum_str (hdp.variants i vars hd) hj hs st rest tail hf h
  | @tupleVariant i vars j var tr ps hd hj hs _ ih =>
    refine Ron.Ev.succ ((Ev.list ps ih).mono fun n hr => ?_)
    intro st rest tail hf h
    rw [deJson]
    simp only [hd]
    refine deJsonEnum_obj (hdp.variants i vars hd) hj (by rw [hs]; simp) ⟨_, _, rfl⟩ ?_ st rest tail hf h
    rw [hs]
    exact tys_reads (fun vs => vs) ps hr
  | @structVariant i vars j var fs vs tr ps hd hj hs hg hps hpo ih =>
    have ih' : Ev fun n => ∀ p ∈ ps, ∀ f ∈ fs, f.skip = Bool.false → f.jsonName = p.1 → Reads fl (deJson env fl n f.readTy) p.2.1 p.2.2 := by
      refine Ev.list ps fun p hp => Ev.list fs fun f hf => ?_
      by_cases h : f.skip = Bool.false ∧ f.jsonName = p.1
      · exact (ih p hp f hf h.1 h.2).mono fun n hr _ _ => hr
      · exact .of fun n h1 h2 => absurd ⟨h1, h2⟩ h
    refine Ron.Ev.succ (((ih'.and (Ron.Ev.big ps.length)).and (Ev.list ps fun p _ => Ron.Ev.big p.2.1.length)).mono fun n hr => ?_)
    intro st rest tail hf h
    rw [deJson]
    simp only [hd]
    refine deJsonEnum_obj (hdp.variants i vars hd) hj (by rw [hs]; simp) ⟨_, _, rfl⟩ ?_ st rest tail hf h
    rw [hs]
    exact deJsonNamed_reads hfl ps (hdp.varFields i vars hd var (List.mem_of_getElem? hj) fs hs) hg
      (fun p hp f hf h1 h2 => (hps p hp f hf h1 h2).form.1) hr.1.1 hpo hr.1.2 hr.2
  | @proxied i px ls p hd _ ih =>
    refine Ron.Ev.succ (ih.mono fun n hr => ?_)
    intro st rest tail hf h
    rw [deJson]
    simp only [hd]
    exact Yields.bind (hr st rest tail hf h) fun s2 h2 => .pure h2

end JRead

/-! ## Two strings are read -/

theorem StrPair.reads (hdp : DistinctProg env) {t a b v} (h : StrPair env t a b v) :
    Ev fun n => ∀ st rest tail, JPos fl st (.str a :: .str b :: rest) tail → Yields (deJson env fl n t st) v fun _ => True := by
  induction h with
  | str =>
    refine Ron.Ev.succ (.of fun n st rest tail h => ?_)
    exact Yields.bind (JRead.deStr_ok h (by simp)) fun s2 h2 => .pure trivial
  | some _ ih =>
    refine Ron.Ev.succ (ih.mono fun n hr st rest tail h => Yields.get ?_)
    rw [if_neg (by rw [show st.tok = .str from h.tok]; simp)]
    exact Yields.bind (hr st rest tail h) fun s2 h2 => .pure trivial
  | box _ ih =>
    refine Ron.Ev.succ (ih.mono fun n hr st rest tail h => ?_)
    exact Yields.bind (hr st rest tail h) fun s2 h2 => .pure trivial
  | transparent hd _ ih =>
    refine Ron.Ev.succ (ih.mono fun n hr st rest tail h => ?_)
    rw [deJson]
    simp only [hd, deJsonTupleStruct]
    exact Yields.bind (hr st rest tail h) fun s2 h2 => .pure trivial
  | proxied hd _ ih =>
    refine Ron.Ev.succ (ih.mono fun n hr st rest tail h => ?_)
    rw [deJson]
    simp only [hd]
    exact Yields.bind (hr st rest tail h) fun s2 h2 => .pure trivial
  | @variant i vars j var a hd hj hs =>
    refine Ron.Ev.succ (.of fun n st rest tail h => ?_)
    rw [deJson]
    simp only [hd]
    have ht : st.tok = .str := h.tok
    refine Yields.get ?_
    rw [if_neg (by rw [ht]; simp), if_pos ⟨ht, JRead.variant_any hj (by simp [Variant.isUnit, hs])⟩]
    refine Yields.bind (a := ()) (Q := fun s => s.strbuf = var.jsonName) ?_ fun s1 h1 => Yields.get ?_
    · rw [expectTok_ok ht]
      obtain ⟨s1, e1, h1, h3, _⟩ := h.next
      exact ⟨s1, e1, h3⟩
    · rw [h1, (findVariant_iff (hdp.variants i vars hd)).2 ⟨var, hj, by simp [hs], rfl⟩]
      exact .pure trivial

/-! ## The two directions -/

theorem json_decodes_of_begins (hfl : FloatLaws fl) (hk : LawfulKeys env) (hdp : DistinctProg env) {t ls v txt} (hx : JBegins fl ls txt)
    (h : JsonSays env fl t ls v) : Decodes (fun n => deserializeJson env fl n t txt) v := by
  have key : ∃ rest tail, Stream (jNext fl) jtok txt (ls ++ rest) tail ∧ JRead.Fits ls rest := by
    rcases hx with hx | ⟨l, r, hx, hne⟩
    · obtain ⟨r, hs⟩ := JWhole.stream hx
      exact ⟨[.eof], r, hs, by simp, fun w _ l r e => by simp at e; rw [← e.1]; rfl⟩
    · refine ⟨[l], r, hx.stream, by simp, fun w e l' r e' => ?_⟩
      simp at e'
      rw [← e'.1]
      cases l with
      | str w' => exact absurd ⟨⟨w, e⟩, w', rfl⟩ hne
      | _ => rfl
  obtain ⟨rest, tail, hs, hf⟩ := key
  obtain ⟨n0, hr⟩ := JRead.reads (fl := fl) hfl hk hdp h
  refine ⟨n0, fun n hn => ?_⟩
  obtain ⟨l, r, rfl, _⟩ := h.form.1
  obtain ⟨s1, e1, h1⟩ : ∃ s1, jNext fl (initSt jcol txt) = .ok () s1 ∧ JPos fl s1 (l :: r ++ rest) tail :=
    hs.start (initSt_txt _ _)
  obtain ⟨s2, e2, _⟩ := hr n hn s1 rest tail hf h1
  refine ⟨s2, ?_⟩
  show (jNext fl >>= fun _ => deJson env fl n t : PM Val) (initSt jcol txt) = _
  rw [M.bind_ok e1]; exact e2

theorem json_decodes_of_strs (hdp : DistinctProg env) {t a b v txt rest} (hx : JScan fl [.str a, .str b] txt rest)
    (h : StrPair env t a b v) : Decodes (fun n => deserializeJson env fl n t txt) v := by
  obtain ⟨n0, hr⟩ := h.reads (fl := fl) hdp
  refine ⟨n0, fun n hn => ?_⟩
  obtain ⟨s1, e1, h1⟩ := hx.stream.start (initSt_txt jcol txt)
  obtain ⟨s2, e2, _⟩ := hr n hn s1 [] rest h1
  refine ⟨s2, ?_⟩
  show (jNext fl >>= fun _ => deJson env fl n t : PM Val) (initSt jcol txt) = _
  rw [M.bind_ok e1]; exact e2

/-- Whatever is read is there. -/
theorem json_sound (hfl : FloatLaws fl) (hk : LawfulKeys env) (hd : DistinctProg env) {n t txt v s'}
    (e : deserializeJson env fl n t txt = .ok v s') : JsonReading env fl t txt v := by
  obtain ⟨_, s1, e1, ed⟩ := M.bind_eq_ok.1 (show (jNext fl >>= fun _ => deJson env fl n t : PM Val) (initSt jcol txt) = _ from e)
  obtain ⟨l1, h1, h2, h3, h4⟩ := jNext_sound' hfl e1
  rw [initSt_txt] at h1
  have at1 : AtL jtok (JLex fl) s1 l1 := ⟨h2, fun b hb => by rw [h3, hb]; rfl, fun b hb => by rw [h4, hb]; rfl, _, _, h1⟩
  by_cases hw : ∃ w w' rest, JScan fl [.str w, .str w'] txt rest
  · obtain ⟨w, w', rest, hw⟩ := hw
    refine .inr ⟨w, w', rest, hw, ?_⟩
    obtain ⟨s1', e1', g1⟩ := hw.stream.start (initSt_txt jcol txt)
    rw [e1] at e1'; injection e1' with _ e1'; subst e1'
    obtain ⟨s2, e2, g2, _⟩ := g1.next
    cases hw with
    | cons a1 a2 a3 a4 =>
      have r1 := JScan.cons a1 a2 a3 .nil
      have r2 : ∃ b c, JScan fl [.str w'] b c := ⟨_, _, a4⟩
      obtain ⟨_, _, r2⟩ := r2
      exact deJson_strs hfl hk hd n ⟨g1.tok, g1.sb, g1.ib, _, _, .inr r1⟩ e2 ⟨g2.tok, g2.sb, g2.ib, _, _, .inr r2⟩ ed
  · left
    obtain ⟨_, _, ⟨_, hx, tr⟩ | ⟨⟨w, w', q1, q2, tr⟩, _⟩⟩ := deJson_inv hfl hk hd n t s1 v s' ⟨l1, at1⟩ ed
    · obtain ⟨txt', l', g1, g2, g3⟩ := JTr.scan tr at1 h1 (fun hm => hx.form.2 (JTr.eof_last tr at1 h1 hm))
      refine ⟨_, ?_, hx⟩
      rcases g3 with ⟨_, g3, _⟩ | g3
      · exact .inl ⟨txt', g1, g3⟩
      · refine .inr ⟨l', _, g1.append g3, ?_⟩
        rintro ⟨⟨w, hw1⟩, w', rfl⟩
        rw [hw1] at g1
        exact hw ⟨w, w', _, g1.append g3⟩
    · exfalso
      obtain ⟨txt', l', g1, g2, g3⟩ := JTr.scan tr at1 h1 (by simp)
      have : l' = .str w' := g2.jeq.trans q2.jeq.symm
      subst this
      rcases g3 with ⟨g3, _⟩ | g3
      · cases g3
      · exact hw ⟨w, w', _, g1.append g3⟩

end NS
