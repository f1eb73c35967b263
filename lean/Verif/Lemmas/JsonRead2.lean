import Verif.Lemmas.JsonRead
/-! `deserialize_json` reads every sequence of lexemes as what it says: compound values. -/
namespace NS
variable {fl : FloatOps} {env : Env}
namespace JRead

/-! ## Members passed over -/

theorem wholeLoop_ok (r : List Lexeme) : ∀ {l : Lexeme} {d : Int} {n : Nat} {st rest tail}, r.length < n → rest ≠ [] →
    JPos fl st (l :: (r ++ rest)) tail → d + depth (l :: r) = 0 →
    (∀ p q, l :: r = p ++ q → p ≠ [] → q ≠ [] → d + depth p ≠ 0) →
    Yields (wholeLoop (jNext fl) n d st) () fun s => JPos fl s rest tail := by
  induction r with
  | nil =>
    intro l d n st rest tail hn hr h hd _
    obtain ⟨n, rfl⟩ : ∃ m, n = m + 1 := ⟨n - 1, by omega⟩
    show Yields ((jNext fl >>= fun _ => if (if st.tok = .blockClose ∨ st.tok = .curlyClose then
      (if st.tok = .blockOpen ∨ st.tok = .curlyOpen then d + 1 else d) - 1
      else (if st.tok = .blockOpen ∨ st.tok = .curlyOpen then d + 1 else d)) = (0 : Int) then (pure () : PM Unit) else wholeLoop (jNext fl) n
      (if st.tok = .blockClose ∨ st.tok = .curlyClose then (if st.tok = .blockOpen ∨ st.tok = .curlyOpen then d + 1 else d) - 1
      else (if st.tok = .blockOpen ∨ st.tok = .curlyOpen then d + 1 else d))) st) _ _
    rw [jtok_count h.tok]
    refine Yields.bind (h.next' hr) fun s hs => ?_
    rw [if_pos (by simpa [depth] using hd)]
    exact .pure hs
  | cons m r ih =>
    intro l d n st rest tail hn hr h hd hmin
    obtain ⟨n, rfl⟩ : ∃ m, n = m + 1 := ⟨n - 1, by omega⟩
    show Yields ((jNext fl >>= fun _ => if (if st.tok = .blockClose ∨ st.tok = .curlyClose then
      (if st.tok = .blockOpen ∨ st.tok = .curlyOpen then d + 1 else d) - 1
      else (if st.tok = .blockOpen ∨ st.tok = .curlyOpen then d + 1 else d)) = (0 : Int) then (pure () : PM Unit) else wholeLoop (jNext fl) n
      (if st.tok = .blockClose ∨ st.tok = .curlyClose then (if st.tok = .blockOpen ∨ st.tok = .curlyOpen then d + 1 else d) - 1
      else (if st.tok = .blockOpen ∨ st.tok = .curlyOpen then d + 1 else d))) st) _ _
    rw [jtok_count h.tok]
    refine Yields.bind (h.next' (by simp)) fun s hs => ?_
    rw [if_neg (by simpa [depth] using hmin [l] (m :: r) rfl (by simp) (by simp))]
    refine ih (by simp at hn; omega) hr hs (by rw [← hd]; simp [depth, Int.add_assoc]) fun p q hpq hp hq => ?_
    have := hmin (l :: p) q (by simp [hpq]) (by simp) hq
    simpa [depth, Int.add_assoc] using this

theorem word_known {w : List Char} (h : jtok (.word w) ≠ .bareIdent) : (∃ b, jtok (.word w) = .bool b) ∨ jtok (.word w) = .null := by
  unfold jtok at h ⊢
  dsimp only at h ⊢
  by_cases w1 : w = ['t', 'r', 'u', 'e']
  · rw [if_pos w1]; exact .inl ⟨_, rfl⟩
  · rw [if_neg w1] at h ⊢
    by_cases w2 : w = ['f', 'a', 'l', 's', 'e']
    · rw [if_pos w2]; exact .inl ⟨_, rfl⟩
    · rw [if_neg w2] at h ⊢
      by_cases w3 : w = ['n', 'u', 'l', 'l']
      · rw [if_pos w3]; exact .inr rfl
      · rw [if_neg w3] at h; exact absurd rfl h

theorem wholeField_ok (hfl : FloatLaws fl) {ls : List Lexeme} {n st rest tail c} (hp : PassedOver ls) (hn : ls.length < n) (hr : rest ≠ [])
    (h : JPos fl st (c :: (ls ++ rest)) tail) :
    Yields ((jNext fl >>= fun _ => wholeField (jNext fl) n) st) () fun s => JPos fl s rest tail := by
  rcases hp with ⟨l, rfl, h1, h2⟩ | ⟨b, r, rfl, hb, hd, hmin⟩
  · have hk : jtok l ≠ .bareIdent := by
      cases At'.rest h with
      | cons h1 _ => exact tokAt_known hfl h1
    refine Yields.bind (h.next' (by simp)) fun s hs => ?_
    have ht : s.tok = jtok l := hs.tok
    have hnx := hs.next' (by simpa using hr)
    show Yields (((match s.tok with
      | .f64 _ | .i64 _ | .str | .u64 _ | .bool _ | .null => jNext fl
      | .blockOpen | .curlyOpen => wholeLoop (jNext fl) n 0
      | _ => M.panic) : PM Unit) s) _ _
    rw [ht]
    cases l with
    | punct t => cases t <;> simp [Lexeme.startsValue, Lexeme.bracket] at h1 h2
    | num t => cases t <;> exact hnx
    | str t => exact hnx
    | eof => cases h1
    | word w =>
      rcases word_known hk with ⟨b, e⟩ | e <;> rw [e] <;> exact hnx
  · refine Yields.bind (h.next' (by simp)) fun s hs => ?_
    have ht : s.tok = jtok b := hs.tok
    have hl := wholeLoop_ok (fl := fl) r (d := 0) (n := n) (by simp at hn; omega) hr hs (by simpa using hd)
      fun p q hpq hp hq => by simpa using hmin p q hpq hp hq
    show Yields (((match s.tok with
      | .f64 _ | .i64 _ | .str | .u64 _ | .bool _ | .null => jNext fl
      | .blockOpen | .curlyOpen => wholeLoop (jNext fl) n 0
      | _ => M.panic) : PM Unit) s) _ _
    rw [ht]
    rcases (jtok_bracket b).1.2 hb with e | e <;> rw [e] <;> exact hl

/-! ## Tuples and arrays -/

/-- One component of a tuple. -/
theorem thenEat_ok {rd : PM Val} {x v sep ys tr rest tail st} (hr : Reads fl rd x v)
    (hsep : sep = [.punct .comma] ∨ (sep = [] ∧ ys = [] ∧ tr = false))
    (h : JPos fl st (x ++ (sep ++ (commaLexemes tr ys ++ .punct .blockClose :: rest))) tail) :
    Yields (thenEat rd (eatCommaBlock (jNext fl)) st) v fun s =>
      JPos fl s (commaLexemes tr ys ++ .punct .blockClose :: rest) tail := by
  refine Yields.bind (hr st _ tail (fits (follow_sep hsep (.inl rfl))) h) fun s1 h1 => ?_
  exact Yields.bind (eat_sep h1 hsep (by decide)) fun s2 h2 => .pure h2

theorem commaAfter_ok {rd : PM Val} {x v sep ys tr rest tail st} (hr : Reads fl rd x v)
    (hsep : sep = [.punct .comma] ∨ (sep = [] ∧ ys = [] ∧ tr = false))
    (h : JPos fl st (x ++ (sep ++ (commaLexemes tr ys ++ .punct .blockClose :: rest))) tail) :
    Yields (commaAfter rd (eatCommaBlock (jNext fl)) st) v fun s =>
      JPos fl s (commaLexemes tr ys ++ .punct .blockClose :: rest) tail := by
  obtain ⟨s1, e1, h1⟩ := hr st _ tail (fits (follow_sep hsep (.inl rfl))) h
  unfold commaAfter
  rw [e1]
  exact Yields.bind (eat_sep h1 hsep (by decide)) fun s2 h2 => .pure h2

theorem deTysEat_ok {de : Ty → PM Val} {tr rest tail} (ps : List (Ty × List Lexeme × Val))
    (hr : ∀ p ∈ ps, Reads fl (de p.1) p.2.1 p.2.2) (st : PSt)
    (h : JPos fl st (commaLexemes tr (ps.map fun p => p.2.1) ++ .punct .blockClose :: rest) tail) :
    Yields (deTysEat de (eatCommaBlock (jNext fl)) (ps.map (·.1)) st) (ps.map (·.2.2)) fun s =>
      JPos fl s (.punct .blockClose :: rest) tail := by
  induction ps generalizing st with
  | nil => exact .pure h
  | cons p ps ih =>
    obtain ⟨sep, e1, e2, _, _⟩ := commaLexemes_cons tr p.2.1 (ps.map fun p => p.2.1) (.punct .blockClose :: rest)
    rw [List.map_cons, e1] at h
    refine Yields.bind (thenEat_ok (hr p (List.mem_cons_self ..)) e2 h) fun s1 h1 => ?_
    exact Yields.bind (ih (fun q hq => hr q (List.mem_cons_of_mem _ hq)) s1 h1) fun s2 h2 => .pure h2

theorem deTysComma_ok {de : Ty → PM Val} {tr rest tail} (ps : List (Ty × List Lexeme × Val))
    (hr : ∀ p ∈ ps, Reads fl (de p.1) p.2.1 p.2.2) (st : PSt)
    (h : JPos fl st (commaLexemes tr (ps.map fun p => p.2.1) ++ .punct .blockClose :: rest) tail) :
    Yields (deTysComma de (eatCommaBlock (jNext fl)) (ps.map (·.1)) st) (ps.map (·.2.2)) fun s =>
      JPos fl s (.punct .blockClose :: rest) tail := by
  induction ps generalizing st with
  | nil => exact .pure h
  | cons p ps ih =>
    obtain ⟨sep, e1, e2, _, _⟩ := commaLexemes_cons tr p.2.1 (ps.map fun p => p.2.1) (.punct .blockClose :: rest)
    rw [List.map_cons, e1] at h
    refine Yields.bind (commaAfter_ok (hr p (List.mem_cons_self ..)) e2 h) fun s1 h1 => ?_
    exact Yields.bind (ih (fun q hq => hr q (List.mem_cons_of_mem _ hq)) s1 h1) fun s2 h2 => .pure h2

theorem repeat_ok {rd : PM Val} {tr rest tail} (ps : List (List Lexeme × Val))
    (hr : ∀ p ∈ ps, Reads fl rd p.1 p.2) (st : PSt)
    (h : JPos fl st (commaLexemes tr (ps.map fun p => p.1) ++ .punct .blockClose :: rest) tail) :
    Yields (repeatM (thenEat rd (eatCommaBlock (jNext fl))) ps.length st) (ps.map (·.2)) fun s =>
      JPos fl s (.punct .blockClose :: rest) tail := by
  induction ps generalizing st with
  | nil => exact .pure h
  | cons p ps ih =>
    obtain ⟨sep, e1, e2, _, _⟩ := commaLexemes_cons tr p.1 (ps.map fun p => p.1) (.punct .blockClose :: rest)
    rw [List.map_cons, e1] at h
    refine Yields.bind (thenEat_ok (hr p (List.mem_cons_self ..)) e2 h) fun s1 h1 => ?_
    exact Yields.bind (ih (fun q hq => hr q (List.mem_cons_of_mem _ hq)) s1 h1) fun s2 h2 => .pure h2

theorem deTuple_reads {de : Ty → PM Val} {tr} (ps : List (Ty × List Lexeme × Val)) {ts} (hts : ps.map (·.1) = ts)
    (hr : ∀ p ∈ ps, Reads fl (de p.1) p.2.1 p.2.2) :
    Reads fl (deTuple (blockOpen (jNext fl)) (blockClose (jNext fl)) (eatCommaBlock (jNext fl)) de ts)
      (inBlocks tr (ps.map (·.2.1))) (.seq (ps.map (·.2.2))) := by
  subst hts
  intro st rest tail hf h
  unfold inBlocks at h
  simp only [List.cons_append, List.append_assoc, List.nil_append] at h
  refine Yields.bind (expect h rfl (by simp)) fun s1 h1 => ?_
  refine Yields.bind (deTysComma_ok ps hr s1 h1) fun s2 h2 => ?_
  exact Yields.bind (expect h2 rfl hf.ne) fun s3 h3 => .pure h3

theorem tys_reads {α : Type} {de : Ty → PM Val} {tr} (g : List Val → α) (ps : List (Ty × List Lexeme × Val))
    (hr : ∀ p ∈ ps, Reads fl (de p.1) p.2.1 p.2.2) :
    Reads fl (blockOpen (jNext fl) >>= fun _ => deTysEat de (eatCommaBlock (jNext fl)) (ps.map (·.1)) >>= fun vs =>
      blockClose (jNext fl) >>= fun _ => (pure (g vs) : PM α)) (inBlocks tr (ps.map (·.2.1))) (g (ps.map (·.2.2))) := by
  intro st rest tail hf h
  unfold inBlocks at h
  simp only [List.cons_append, List.append_assoc, List.nil_append] at h
  refine Yields.bind (expect h rfl (by simp)) fun s1 h1 => ?_
  refine Yields.bind (deTysEat_ok ps hr s1 h1) fun s2 h2 => ?_
  exact Yields.bind (expect h2 rfl hf.ne) fun s3 h3 => .pure h3

/-! ## Structs -/

theorem deField_ok {de : Ty → PM Val} {f : Field} {st w Q} (h : Yields (de f.readTy st) w Q) :
    Yields (deField de f st) (f.wrap w) Q := by
  unfold deField
  unfold Field.readTy at h
  unfold Field.wrap
  generalize f.optProxy = p at h ⊢
  generalize f.ty = T at h ⊢
  cases p with
  | false => exact h
  | true =>
    cases T with
    | option t => exact Yields.bind h fun s q => .pure q
    | _ => exact h

theorem jMember_ok (hfl : FloatLaws fl) {de : Ty → PM Val} {fs : List Field} {p : Member (List Lexeme)} {n acc st sep ys tr rest tail}
    (hd : DistinctNames fs) (hne : fs ≠ []) (hst : (∃ f ∈ fs, f.skip = false ∧ f.jsonName = p.1) → Starts p.2.1)
    (hr : ∀ f ∈ fs, f.skip = false → f.jsonName = p.1 → Reads fl (de f.readTy) p.2.1 p.2.2)
    (hp : (∀ f ∈ fs, f.skip = false → f.jsonName ≠ p.1) → PassedOver p.2.1) (hn : p.2.1.length < n)
    (hsep : sep = [.punct .comma] ∨ (sep = [] ∧ ys = [] ∧ tr = false))
    (h : JPos fl st (.str p.1 :: .punct .colon :: (p.2.1 ++ (sep ++ (commaLexemes tr ys ++ .punct .curlyClose :: rest)))) tail) :
    Yields (jMember (jNext fl) n de fs acc st) (Json.mstep fs acc p) fun s =>
      JPos fl s (commaLexemes tr ys ++ .punct .curlyClose :: rest) tail := by
  have hsb : st.strbuf = p.1 := At'.sb h p.1 rfl
  have hemp : fs.isEmpty = false := by cases fs with
    | nil => exact absurd rfl hne
    | cons => rfl
  have hfo : sep ++ (commaLexemes tr ys ++ .punct .curlyClose :: rest) ≠ [] := (follow_sep hsep (.inr rfl)).ne
  refine Yields.get ?_
  rw [hsb]
  refine Yields.bind (a := Json.mstep fs acc p) (Q := fun s => JPos fl s (sep ++ (commaLexemes tr ys ++ .punct .curlyClose :: rest)) tail) ?_
    fun s1 h1 => Yields.bind (eat_sep h1 hsep (by decide)) fun s2 h2 => .pure h2
  unfold jMemberValue Json.mstep
  rw [hemp]
  cases hff : findField fs p.1 with
  | none =>
    have unknown : ∀ f ∈ fs, f.skip = false → f.jsonName ≠ p.1 := by
      intro f hf hs hname
      obtain ⟨i, hi⟩ := List.getElem?_of_mem hf
      have := (findField_iff hd).2 ⟨f, hi, hs, hname⟩
      rw [hff] at this; cases this
    have key : Yields ((nextColon (jNext fl) >>= fun _ => wholeField (jNext fl) n) st) () fun s =>
        JPos fl s (sep ++ (commaLexemes tr ys ++ .punct .curlyClose :: rest)) tail := by
      have : (nextColon (jNext fl) >>= fun _ => wholeField (jNext fl) n : PM Unit) =
          (jNext fl >>= fun _ => colon (jNext fl) >>= fun _ => wholeField (jNext fl) n) := M.bind_assoc _ _ _
      rw [this]
      refine Yields.bind (h.next' (by simp)) fun s1 h1 => ?_
      show Yields ((expectTok (jNext fl) .colon _ >>= fun _ => wholeField (jNext fl) n) s1) _ _
      have e := expectTok_ok (nx := jNext fl) (what := ":") (show s1.tok = .colon from h1.tok)
      have hw := wholeField_ok hfl (hp unknown) hn hfo h1
      obtain ⟨s2, e2, q⟩ := hw
      obtain ⟨_, s3, e3, e4⟩ := M.bind_eq_ok.1 e2
      refine ⟨s2, ?_, q⟩
      rw [M.bind_ok (e.trans e3)]
      exact e4
    have : (nextColon (jNext fl) >>= fun _ => wholeField (jNext fl) n >>= fun _ => (pure acc : PM _)) =
        ((nextColon (jNext fl) >>= fun _ => wholeField (jNext fl) n) >>= fun _ => (pure acc : PM _)) := (M.bind_assoc _ _ _).symm
    show Yields ((nextColon (jNext fl) >>= fun _ => wholeField (jNext fl) n >>= fun _ => (pure acc : PM _)) st) _ _
    rw [this]
    exact Yields.bind key fun s q => .pure q
  | some i =>
    obtain ⟨f, hf, hs, hname⟩ := (findField_iff hd).1 hff
    have hmem := List.mem_of_getElem? hf
    have hget : fs.getD i { name := [], ty := .unit } = f := by simp [List.getD, hf]
    simp only [hget]
    have hstart := hst ⟨f, hmem, hs, hname⟩
    refine Yields.bind (a := ()) (Q := fun s => JPos fl s (p.2.1 ++ (sep ++ (commaLexemes tr ys ++ .punct .curlyClose :: rest))) tail) ?_ fun s1 h1 => ?_
    · refine Yields.bind (h.next' (by simp)) fun s1 h1 => ?_
      exact expect h1 rfl hstart.ne
    · exact Yields.bind (deField_ok (hr f hmem hs hname s1 _ tail (fits (follow_sep hsep (.inr rfl))) h1)) fun s2 h2 => .pure h2

theorem deJsonNamed_reads (hfl : FloatLaws fl) {de : Ty → PM Val} {cd fs vs tr} {n : Nat} (ps : List (Member (List Lexeme)))
    (hd : DistinctNames fs) (hg : JFieldsGet cd fs ps vs)
    (hst : ∀ p ∈ ps, ∀ f ∈ fs, f.skip = false → f.jsonName = p.1 → Starts p.2.1)
    (hr : ∀ p ∈ ps, ∀ f ∈ fs, f.skip = false → f.jsonName = p.1 → Reads fl (de f.readTy) p.2.1 p.2.2)
    (hp : ∀ p ∈ ps, (∀ f ∈ fs, f.skip = false → f.jsonName ≠ p.1) → PassedOver p.2.1)
    (hn : ps.length < n) (hn' : ∀ p ∈ ps, p.2.1.length < n) :
    Reads fl (deJsonNamed (jNext fl) n de cd fs) (inCurlies tr (ps.map Member.lexemes)) vs := by
  intro st rest tail hf h
  unfold inCurlies at h
  simp only [List.cons_append, List.append_assoc, List.nil_append] at h
  refine Yields.bind (expect h rfl (by simp)) fun s1 h1 => ?_
  refine Yields.bind (whileIs_yields (lx := Member.lexemes) (step := Json.mstep fs) ps ?_ ?_ n hn _ tr s1 h1) ?_
  · intro p hp
    exact ⟨_, _, rfl, rfl⟩
  · intro p hm acc s sep ys tr' hsep hpos
    have hne : fs ≠ [] := by
      intro e
      rw [hg.1 e] at hm; cases hm
    exact jMember_ok hfl hd hne (fun ⟨f, h1, h2, h3⟩ => hst p hm f h1 h2 h3) (hr p hm) (hp p hm) (hn' p hm) hsep
      (by simpa [Member.lexemes] using hpos)
  · intro s hs
    refine Yields.bind (expect hs rfl hf.ne) fun s2 h2 => ?_
    have := unwrapFields_agree cd fs (ps.foldl (Json.mstep fs) (fs.map fun _ => none)) s2
    rw [(Json.unwrap_iff hd hg.1).2 hg] at this
    obtain ⟨s3, e3, rfl⟩ := this
    exact ⟨_, e3, h2⟩

/-! ## Enums -/

theorem variant_any {vars : List Variant} {j : Nat} {var} (h : vars[j]? = some var) {p : Variant → Bool} (hp : p var = true) :
    vars.any p = true := List.any_eq_true.2 ⟨var, List.mem_of_getElem? h, hp⟩

theorem deJsonEnum_str {n : Nat} {de : Ty → PM Val} {vars j var} (hd : DistinctVariants vars)
    (hj : vars[j]? = some var) (hs : var.shape = .unit) :
    Reads fl (deJsonEnum (jNext fl) n de vars) [.str var.jsonName] (.variant j []) := by
  intro st rest tail hf h
  obtain ⟨c, r, rfl⟩ := List.exists_cons_of_ne_nil hf.ne
  have hsb := hf.str _ rfl c r rfl
  have hu : var.isUnit = true := by simp [Variant.isUnit, hs]
  refine Yields.get ?_
  have ht : st.tok = .str := h.tok
  rw [if_neg (by rw [ht]; simp), if_pos ⟨ht, variant_any hj hu⟩]
  refine Yields.bind (string_ok h hsb) fun s1 ⟨h1, hb⟩ => ?_
  refine Yields.get ?_
  rw [hb, (findVariant_iff hd).2 ⟨var, hj, by simp [hs], rfl⟩]
  exact .pure h1

theorem deJsonEnum_obj {n : Nat} {de : Ty → PM Val} {vars j var body vs} (hd : DistinctVariants vars)
    (hj : vars[j]? = some var) (hs : var.shape ≠ .unit) (hb : ∃ t r, body = .punct t :: r)
    (hr : Reads fl (deJsonShape (jNext fl) n de var.shape) body vs) :
    Reads fl (deJsonEnum (jNext fl) n de vars) (inCurlies false [.str var.jsonName :: .punct .colon :: body]) (.variant j vs) := by
  obtain ⟨t, r, rfl⟩ := hb
  intro st rest tail hf h
  unfold inCurlies at h
  simp only [commaLexemes, List.cons_append, List.append_assoc, List.nil_append] at h
  have hu : (!var.isUnit) = true := by
    unfold Variant.isUnit
    cases hsh : var.shape with
    | unit => exact absurd hsh hs
    | _ => rfl
  refine Yields.get ?_
  have ht : st.tok = .curlyOpen := h.tok
  rw [if_pos ⟨ht, variant_any hj hu⟩]
  refine Yields.bind (expect h rfl (by simp)) fun s1 h1 => ?_
  refine Yields.bind (string_ok h1 rfl) fun s2 ⟨h2, hb⟩ => ?_
  refine Yields.bind (a := ()) (Q := fun s => JPos fl s (.punct t :: (r ++ (.punct .curlyClose :: rest))) tail ∧ s.strbuf = var.jsonName) ?_ fun s3 ⟨h3, hb3⟩ => ?_
  · unfold colon
    rw [expectTok_ok (show s2.tok = .colon from h2.tok)]
    obtain ⟨s, e, g1, g3, _⟩ := h2.next
    exact ⟨s, e, by simpa using g1, by rw [g3]; simpa [Lexeme.sb] using hb⟩
  refine Yields.get ?_
  have hget : vars.getD j { name := [], shape := .unit } = var := by simp [List.getD, hj]
  rw [hb3, (findVariant_iff hd).2 ⟨var, hj, by simp [hs], rfl⟩]
  simp only [hget]
  refine Yields.bind (hr s3 _ tail (.punct (by simp)) h3) fun s4 h4 => ?_
  exact Yields.bind (expect h4 rfl hf.ne) fun s5 h5 => .pure h5

end JRead
end NS
