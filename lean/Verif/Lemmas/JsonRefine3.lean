import Verif.Lemmas.JsonRefine2
/-! `deserialize_json` computes the reference decoder, continued: structs, enums, all types. -/
namespace NS
variable {fl : FloatOps}

theorem Dec.bind_assoc {α β γ : Type} (d : Dec α) (f : α → Dec β) (g : β → Dec γ) :
    (d.bind f).bind g = d.bind fun a => (f a).bind g := by cases d <;> rfl

/-! ## Structs -/

theorem JTree.lexemes_ne (J : JTree) (r : List Lexeme) : J.lexemes ++ r ≠ [] := by
  obtain ⟨l, ls, e, _⟩ := J.lexemes_start; simp [e]

/-- `next_colon` from a string key. -/
theorem nextColon_ok {st k} {v : JTree} {rest tail} (h : JPos fl st (.str k :: .punct .colon :: (v.lexemes ++ rest)) tail) :
    ∃ s, nextColon (jNext fl) st = .ok () s ∧ JPos fl s (v.lexemes ++ rest) tail := by
  obtain ⟨s1, e1, h1⟩ := h.next' (by simp)
  obtain ⟨s2, e2, h2⟩ := h1.next' (v.lexemes_ne _)
  refine ⟨s2, ?_, h2⟩
  show (jNext fl >>= fun _ => colon (jNext fl)) st = _
  rw [M.bind_ok e1]
  exact (expectTok_ok (by exact h1.tok)).trans e2

theorem jMember_agree {n : Nat} {de : Ty → PM Val} {dec : Ty → Option JTree → Dec Val} {fs : List Field}
    {acc st sep ys tr rest tail key v}
    (hsome : ∀ t, Reads fl (de t) v (dec t (some v))) (hn : v.lexemes.length ≤ n)
    (hsep : sep = [.punct .comma] ∨ (sep = [] ∧ ys = [] ∧ tr = false))
    (h : JPos fl st (.str key :: .punct .colon :: (v.lexemes ++
      (sep ++ (commaLexemes tr ys ++ .punct .curlyClose :: rest)))) tail) :
    Agree (jMember (jNext fl) n de fs acc st) (decMember dec fs acc (.str key, v))
      (fun s => JPos fl s (commaLexemes tr ys ++ .punct .curlyClose :: rest) tail) := by
  have hk : st.strbuf = key := At'.sb h key rfl
  have ht : st.tok = .str := h.tok
  show Agree ((jMemberValue (jNext fl) n de fs acc st.strbuf >>= fun acc' => eatCommaCurly (jNext fl) >>= fun _ =>
    (pure acc' : PM _)) st) _ _
  rw [hk]
  unfold decMember jMemberValue
  simp only
  by_cases hfs : fs.isEmpty = true
  · rw [if_pos hfs, if_pos hfs]
    refine Agree.step (s := st) (a := acc) rfl ?_
    refine Agree.fail ?_
    obtain ⟨e, he⟩ := eatComma_err (nx := jNext fl) (what := ", or }") (st := st) (close := .curlyClose)
      (by rw [ht]; simp) (by rw [ht]; simp)
    exact ⟨e, st, he⟩
  · rw [if_neg hfs, if_neg hfs]
    obtain ⟨s1, e1, h1⟩ := nextColon_ok h
    have hfin : ∀ (d : Dec (List (Option Val))) (r : PM (List (Option Val))),
        Agree (r s1) d (fun s => JPos fl s (sep ++ (commaLexemes tr ys ++ .punct .curlyClose :: rest)) tail) →
        Agree (((nextColon (jNext fl) >>= fun _ => r) >>= fun acc' => eatCommaCurly (jNext fl) >>= fun _ =>
          (pure acc' : PM _)) st) d
          (fun s => JPos fl s (commaLexemes tr ys ++ .punct .curlyClose :: rest) tail) := by
      intro d r hr
      rw [M.bind_assoc]
      refine Agree.step e1 ?_
      rw [← Dec.bind_ok_id d]
      refine Agree.bind hr fun a s hs => ?_
      obtain ⟨s4, e4, h4⟩ := eat_sep (what := ", or }") hs hsep (by decide)
      exact Agree.step e4 ⟨s4, rfl, h4⟩
    cases hff : findField fs key with
    | none =>
      refine hfin _ _ ?_
      obtain ⟨s2, e2, h2⟩ := wholeField_reads hn s1 _ tail (follow_sep hsep (.inr rfl)) h1
      exact Agree.step e2 ⟨s2, rfl, h2⟩
    | some i =>
      simp only
      refine hfin _ _ ?_
      generalize (fs.getD i { name := [], ty := .unit }) = f
      have hr := fun t => hsome t s1 _ tail (follow_sep hsep (.inr rfl)) h1
      refine Agree.bind (g := fun v => .ok (acc.set i (some v))) (d := decField dec f v) ?_
        fun a s hs => ⟨s, rfl, hs⟩
      unfold deField decField
      generalize f.optProxy = p
      generalize f.ty = T
      cases p with
      | false => exact hr _
      | true =>
        cases T with
        | option t =>
          exact Agree.bind (f := fun v => (pure (Val.some v) : PM Val)) (g := fun v => .ok (Val.some v)) (hr t)
            fun a s hs => ⟨s, rfl, hs⟩
        | _ => exact hr _

theorem unwrapFields_agree (cd : Bool) (fs : List Field) (acc : List (Option Val)) (st : PSt) :
    Agree (unwrapFields cd fs acc st) (decUnwrap cd fs acc) (fun s => s = st) := by
  induction fs generalizing acc with
  | nil => exact ⟨st, rfl, rfl⟩
  | cons f fs ih =>
    cases acc with
    | nil => exact ⟨st, rfl, rfl⟩
    | cons o os =>
      unfold unwrapFields decUnwrap
      cases (if f.skip = true then none else o) with
      | some v =>
        simp only
        refine Agree.step (s := st) (a := v) rfl ?_
        exact (ih os).bind fun a s hs => ⟨s, rfl, hs⟩
      | none =>
        simp only
        by_cases hc : (f.skip || f.optSyn || cd || f.dfltAttr.isSome) = true
        · rw [if_pos hc, if_pos hc]
          refine Agree.step (s := st) (a := f.dfltAttr.getD f.tyDefault) rfl ?_
          exact (ih os).bind fun a s hs => ⟨s, rfl, hs⟩
        · rw [if_neg hc, if_neg hc]
          exact Agree.fail ⟨_, _, rfl⟩

theorem whileIs_step {α : Type} {t : Tok} {body : α → PM α} {n acc st} (h : st.tok = t) :
    whileIs t body (n + 1) acc st = (body acc >>= fun a => whileIs t body n a) st := by
  show (if st.tok = t then (body acc >>= fun a => whileIs t body n a) else (Pure.pure acc : PM α)) st = _
  rw [if_pos h]

theorem whileIs_stop {α : Type} {t : Tok} {body : α → PM α} {n acc st} (h : st.tok ≠ t) :
    whileIs t body (n + 1) acc st = .ok acc st := by
  show (if st.tok = t then (body acc >>= fun a => whileIs t body n a) else (Pure.pure acc : PM α)) st = _
  rw [if_neg h]; rfl

/-- The member loop and the closing brace. -/
theorem members_agree {N : Nat} {de : Ty → PM Val} {dec : Ty → Option JTree → Dec Val} {fs : List Field}
    {rest tail} {β : Type} (hf : Follow rest) (tr : Bool) (ms : List (JTree × JTree))
    (hsome : ∀ m ∈ ms, ∀ t, Reads fl (de t) m.2 (dec t (some m.2))) (hN : ∀ m ∈ ms, m.2.lexemes.length ≤ N)
    (k : List (Option Val) → PM β) (g : List (Option Val) → Dec β) (Q : PSt → Prop)
    (hk : ∀ a s, JPos fl s rest tail → Agree (k a s) (g a) Q)
    (n : Nat) (hn : ms.length < n) (acc : List (Option Val)) (st : PSt)
    (h : JPos fl st (commaLexemes tr (ms.map fun m => m.1.lexemes ++ .punct .colon :: m.2.lexemes) ++
      .punct .curlyClose :: rest) tail) :
    Agree ((whileIs .str (jMember (jNext fl) N de fs) n acc >>= fun a => curlyClose (jNext fl) >>= fun _ => k a) st)
      ((foldD (decMember dec fs) acc ms).bind g) Q := by
  induction ms generalizing n acc st with
  | nil =>
    obtain ⟨n, rfl⟩ : ∃ m, n = m + 1 := ⟨n - 1, by omega⟩
    have ht : st.tok = .curlyClose := h.tok
    refine Agree.step (whileIs_stop (by rw [ht]; simp)) ?_
    obtain ⟨s1, e1, h1⟩ := h.next' hf.ne
    exact Agree.step ((expectTok_ok ht).trans e1) (hk _ _ h1)
  | cons m ms ih =>
    obtain ⟨n, rfl⟩ : ∃ m, n = m + 1 := ⟨n - 1, by omega⟩
    obtain ⟨sep, e1, e2, _, _⟩ := commaLexemes_cons tr (m.1.lexemes ++ .punct .colon :: m.2.lexemes)
      (ms.map fun m => m.1.lexemes ++ .punct .colon :: m.2.lexemes) (.punct .curlyClose :: rest)
    rw [List.map_cons, e1] at h
    simp only [List.append_assoc, List.cons_append] at h
    obtain ⟨key, v⟩ := m
    by_cases hs : ∃ s, key = .str s
    · obtain ⟨key, rfl⟩ := hs
      simp only [JTree.lexemes, List.cons_append, List.nil_append] at h
      have hm := jMember_agree (n := N) (fs := fs) (acc := acc) (hsome _ (List.mem_cons_self ..))
        (hN _ (List.mem_cons_self ..)) e2 h
      have ht : st.tok = .str := h.tok
      have : (whileIs .str (jMember (jNext fl) N de fs) (n + 1) acc >>= fun a => curlyClose (jNext fl) >>= fun _ => k a) st =
        (jMember (jNext fl) N de fs acc >>= fun acc' => whileIs .str (jMember (jNext fl) N de fs) n acc' >>= fun a =>
          curlyClose (jNext fl) >>= fun _ => k a) st := by
        rw [← M.bind_assoc, M.bind_def, whileIs_step ht, ← M.bind_def]
      rw [this, foldD, Dec.bind_assoc]
      refine Agree.bind hm fun a s hs => ?_
      exact ih (fun m hm => hsome m (List.mem_cons_of_mem _ hm)) (fun m hm => hN m (List.mem_cons_of_mem _ hm)) n
        (by simp at hn; omega) a s hs
    · have hd : decMember dec fs acc (key, v) = .err := by
        unfold decMember
        split
        · rename_i k e; exact absurd ⟨k, e⟩ hs
        · rfl
      rw [foldD, hd]
      have ht : st.tok ≠ .str := by rw [Ne, (JPos.facts h).1]; exact hs
      refine Agree.step (whileIs_stop ht) ?_
      refine Agree.fail ?_
      obtain ⟨l, hl, e⟩ := h.start
      obtain ⟨e, he⟩ := expectTok_err (nx := jNext fl) (what := "}") (st := st) (t := .curlyClose)
        (by rw [e]; exact hl.ne.2.2.2.1)
      exact ⟨e, st, he⟩

theorem deJsonNamed_reads {n : Nat} {de : Ty → PM Val} {dec : Ty → Option JTree → Dec Val} {fs : List Field} {cd : Bool}
    {J : JTree} (hsome : ∀ ms tr, J = .obj ms tr → ∀ m ∈ ms, ∀ t, Reads fl (de t) m.2 (dec t (some m.2)))
    (hn : J.lexemes.length ≤ n) :
    Reads fl (deJsonNamed (jNext fl) n de cd fs) J (decNamed dec cd fs (some J)) := by
  intro st rest tail hf h
  by_cases hJ : ∃ ms tr, J = .obj ms tr
  · obtain ⟨ms, tr, rfl⟩ := hJ
    have hc := obj_count (ms := ms) (tr := tr)
    have hl := fun m (hm : m ∈ ms) => obj_mem_len (tr := tr) hm
    rw [JTree.lexemes_obj] at h
    simp only [List.cons_append, List.append_assoc, List.nil_append] at h
    obtain ⟨s1, e1, h1⟩ := h.next' (by simp)
    have e1' : curlyOpen (jNext fl) st = .ok () s1 := (expectTok_ok (by exact h.tok)).trans e1
    refine Agree.step e1' ?_
    exact members_agree hf tr ms (hsome ms tr rfl) (fun m hm => by have := hl m hm; omega)
      (fun a => unwrapFields cd fs a) (fun a => decUnwrap cd fs a) _
      (fun a s hs => (unwrapFields_agree cd fs a s).mono fun s' e => by rw [e]; exact hs) n (by omega) _ s1 h1
  · have : decNamed dec cd fs (some J) = .err := by
      unfold decNamed
      split
      · rename_i ms tr e; exact absurd ⟨ms, tr, by simpa using e⟩ hJ
      · rfl
    rw [this]
    refine Agree.fail ?_
    obtain ⟨e, he⟩ := expectTok_err (nx := jNext fl) (what := "{") (st := st) (t := .curlyOpen)
      (by rw [Ne, (JPos.facts h).2.2.2.1]; exact hJ)
    exact ⟨e, st, he⟩

/-! ## Tuple structs -/

theorem deJsonTupleStruct_reads {de : Ty → PM Val} {dec : Ty → Option JTree → Dec Val} {ts : List Ty} {trn : Bool}
    {J : JTree} (hsome : ∀ t, Reads fl (de t) J (dec t (some J)))
    (hitems : ∀ t xs tr, J = .arr xs tr → ∀ x ∈ xs, Reads fl (de t) x (dec t (some x)))
    (hnone : ∀ t, ReadsNone fl (de t) (dec t none)) (hno : ∀ t v, dec t none ≠ .ok v) :
    Reads fl (deJsonTupleStruct (jNext fl) de ts trn) J (decTupleStruct dec ts trn (some J)) := by
  have hbig : ∀ ts, Reads fl (blockOpen (jNext fl) >>= fun _ => deTysEat de (eatCommaBlock (jNext fl)) ts >>= fun vs =>
      blockClose (jNext fl) >>= fun _ => (pure (.struct vs) : PM Val)) J ((decTuple dec ts (some J)).bind fun vs => .ok (.struct vs)) := by
    intro ts
    rw [deTysEat_by]
    exact tuple_reads thenEat_elem ts _ J (fun t _ xs tr e x hx => hitems t xs tr e x hx) (fun t _ => hnone t) (fun t _ => hno t)
  cases ts with
  | nil =>
    unfold deJsonTupleStruct decTupleStruct
    intro st rest tail hf h
    simp only
    by_cases hJ : ∃ ms tr, J = .obj ms tr
    · obtain ⟨ms, tr, rfl⟩ := hJ
      rw [JTree.lexemes_obj] at h
      simp only [List.cons_append, List.append_assoc, List.nil_append] at h
      obtain ⟨s1, e1, h1⟩ := h.next' (by simp)
      refine Agree.step ((expectTok_ok (by exact h.tok)).trans e1) ?_
      cases ms with
      | nil =>
        obtain ⟨s2, e2, h2⟩ := h1.next' hf.ne
        exact Agree.step ((expectTok_ok (by exact h1.tok)).trans e2) ⟨s2, rfl, h2⟩
      | cons m ms =>
        refine Agree.fail ?_
        obtain ⟨sep, e1, e2, _, _⟩ := commaLexemes_cons tr (m.1.lexemes ++ .punct .colon :: m.2.lexemes)
          (ms.map fun m => m.1.lexemes ++ .punct .colon :: m.2.lexemes) (.punct .curlyClose :: rest)
        rw [List.map_cons, e1] at h1
        simp only [List.append_assoc, List.cons_append] at h1
        obtain ⟨l, hl, e⟩ := JPos.start (fl := fl) h1
        obtain ⟨e, he⟩ := expectTok_err (nx := jNext fl) (what := "}") (st := s1) (t := .curlyClose)
          (by rw [e]; exact hl.ne.2.2.2.1)
        exact ⟨e, s1, he⟩
    · have : decTupleStruct dec [] trn (some J) = .err := by
        cases J with
        | obj ms tr => exact absurd ⟨ms, tr, rfl⟩ hJ
        | _ => rfl
      show Agree _ (decTupleStruct dec [] trn (some J)) _
      rw [this]
      refine Agree.fail ?_
      obtain ⟨e, he⟩ := expectTok_err (nx := jNext fl) (what := "{") (st := st) (t := .curlyOpen)
        (by rw [Ne, (JPos.facts h).2.2.2.1]; exact hJ)
      exact ⟨e, st, he⟩
  | cons t ts =>
    cases ts with
    | nil =>
      cases trn with
      | true =>
        intro st rest tail hf h
        exact Agree.bind (hsome t st rest tail hf h) fun a s hs => ⟨s, rfl, hs⟩
      | false =>
        intro st rest tail hf h
        show Agree ((blockOpen (jNext fl) >>= fun _ => de t >>= fun v => blockClose (jNext fl) >>= fun _ => (pure (.struct [v]) : PM Val)) st) _ _
        by_cases hJ : ∃ xs tr, J = .arr xs tr
        · obtain ⟨xs, tr, rfl⟩ := hJ
          rw [JTree.lexemes_arr] at h
          simp only [List.cons_append, List.append_assoc, List.nil_append] at h
          obtain ⟨s1, e1, h1⟩ := h.next' (by simp)
          refine Agree.step ((expectTok_ok (by exact h.tok)).trans e1) ?_
          cases xs with
          | nil =>
            have hn := hnone t s1 (.punct .blockClose :: rest) tail ⟨_, _, rfl, by simp [IsFollow]⟩ h1
            show Agree _ ((dec t none).bind fun _ => .err) _
            cases hd : dec t none with
            | ok a => exact absurd hd (hno t a)
            | err => rw [hd] at hn; exact Agree.fail hn
            | panic => rw [hd] at hn; exact M.bind_panic hn
            | oof => trivial
          | cons x xs =>
            obtain ⟨sep, e1, e2, _, e5⟩ := commaLexemes_cons tr x.lexemes (xs.map JTree.lexemes) (.punct .blockClose :: rest)
            rw [List.map_cons, e1] at h1
            refine Agree.bind (hitems t _ _ rfl x (List.mem_cons_self ..) s1 _ tail (follow_sep e2 (.inl rfl)) h1) fun a s hs => ?_
            by_cases hx : xs.isEmpty = true ∧ tr = false
            · rw [if_pos hx]
              obtain ⟨hx, rfl⟩ := hx
              have : xs = [] := by simpa using hx
              subst this
              have hsep : sep = [] := by
                have := congrArg List.length e1
                simpa [commaLexemes] using this
              subst hsep
              obtain ⟨s2, e2, h2⟩ := hs.next' hf.ne
              exact Agree.step ((expectTok_ok (by exact hs.tok)).trans e2) ⟨s2, rfl, h2⟩
            · rw [if_neg hx]
              have hsep : sep = [.punct .comma] := by
                rcases e2 with h | ⟨_, h1, h2⟩
                · exact h
                · exact absurd ⟨by simpa using h1, h2⟩ hx
              subst hsep
              refine Agree.fail ?_
              obtain ⟨e, he⟩ := expectTok_err (nx := jNext fl) (what := "]") (st := s) (t := .blockClose)
                (by rw [show s.tok = _ from hs.tok]; decide)
              exact ⟨e, s, he⟩
        · have : decTupleStruct dec [t] false (some J) = .err := by
            unfold decTupleStruct
            simp only
            split
            · rename_i tr e; exact absurd ⟨_, tr, by simpa using e⟩ hJ
            · rename_i tr e; exact absurd ⟨_, tr, by simpa using e⟩ hJ
            · rfl
          rw [this]
          refine Agree.fail ?_
          obtain ⟨e, he⟩ := expectTok_err (nx := jNext fl) (what := "[") (st := st) (t := .blockOpen)
            (by rw [Ne, (JPos.facts h).2.2.1]; exact hJ)
          exact ⟨e, st, he⟩
    | cons t' ts => exact hbig (t :: t' :: ts)

/-! ## Enums -/

theorem findVariant_lt {vars : List Variant} {u : Bool} {k : List Char} {j : Nat} (h : findVariant vars u k = some j) :
    ∃ v, vars[j]? = some v ∧ v.isUnit = u ∧ v.key = k := by
  unfold findVariant at h
  have := List.findIdx?_eq_some_iff_getElem.1 h
  obtain ⟨hlt, hp, _⟩ := this
  refine ⟨vars[j], List.getElem?_eq_getElem hlt, ?_⟩
  simpa using hp

theorem findVariant_any {vars : List Variant} {u : Bool} {k : List Char} (h : vars.any (fun v => v.isUnit == u) = false) :
    findVariant vars u k = none := by
  cases e : findVariant vars u k with
  | none => rfl
  | some j =>
    obtain ⟨v, hv, hu, _⟩ := findVariant_lt e
    have hm := List.mem_of_getElem? hv
    simp only [List.any_eq_false] at h
    exact absurd (by simpa using hu) (h v hm)

theorem deJsonShape_reads {n : Nat} {de : Ty → PM Val} {dec : Ty → Option JTree → Dec Val} {sh : Shape}
    {J : JTree} (hsome : ∀ ms tr, J = .obj ms tr → ∀ m ∈ ms, ∀ t, Reads fl (de t) m.2 (dec t (some m.2)))
    (hitems : ∀ t xs tr, J = .arr xs tr → ∀ x ∈ xs, Reads fl (de t) x (dec t (some x)))
    (hnone : ∀ t, ReadsNone fl (de t) (dec t none)) (hno : ∀ t v, dec t none ≠ .ok v)
    (hn : J.lexemes.length ≤ n) (hu : sh ≠ .unit) :
    Reads fl (deJsonShape (jNext fl) n de sh) J (decShape dec J sh) := by
  cases sh with
  | unit => exact absurd rfl hu
  | tuple ts =>
    show Reads fl (blockOpen (jNext fl) >>= fun _ => deTysEat de (eatCommaBlock (jNext fl)) ts >>= fun vs =>
      blockClose (jNext fl) >>= fun _ => (pure vs : PM (List Val))) J (decTuple dec ts (some J))
    rw [deTysEat_by, ← Dec.bind_ok_id (decTuple dec ts (some J))]
    exact tuple_reads thenEat_elem ts (fun vs => vs) J (fun t _ xs tr e x hx => hitems t xs tr e x hx)
      (fun t _ => hnone t) (fun t _ => hno t)
  | named fs => exact deJsonNamed_reads hsome hn

theorem decShape_scalar {dec : Ty → Option JTree → Dec Val} {sh : Shape} {J : JTree}
    (h1 : ∀ xs tr, J ≠ .arr xs tr) (h2 : ∀ ms tr, J ≠ .obj ms tr) : decShape dec J sh = .err := by
  cases sh with
  | unit => rfl
  | tuple ts =>
    cases J <;> first | rfl | (exact absurd rfl (h1 _ _))
  | named ts =>
    cases J <;> first | rfl | (exact absurd rfl (h2 _ _))

theorem deJsonEnum_reads {n : Nat} {de : Ty → PM Val} {dec : Ty → Option JTree → Dec Val} {vars : List Variant}
    {J : JTree}
    (hsome : ∀ ms tr, J = .obj ms tr → ∀ m ∈ ms, ∀ ms' tr', m.2 = .obj ms' tr' → ∀ m' ∈ ms', ∀ t,
      Reads fl (de t) m'.2 (dec t (some m'.2)))
    (hitems : ∀ ms tr, J = .obj ms tr → ∀ m ∈ ms, ∀ t xs tr, m.2 = .arr xs tr → ∀ x ∈ xs,
      Reads fl (de t) x (dec t (some x)))
    (hnone : ∀ t, ReadsNone fl (de t) (dec t none)) (hno : ∀ t v, dec t none ≠ .ok v)
    (hn : J.lexemes.length ≤ n) :
    Reads fl (deJsonEnum (jNext fl) n de vars) J (decEnum dec vars (some J)) := by
  intro st rest tail hf h
  let inner : PSt → PM Val := fun s => match findVariant vars false s.strbuf with
    | some j => do
      let vs ← deJsonShape (jNext fl) n de (vars.getD j { name := [], shape := .unit }).shape
      curlyClose (jNext fl)
      pure (.variant j vs)
    | none => errEnum s.strbuf
  let innerU : PSt → PM Val := fun s => match findVariant vars true s.strbuf with
    | some j => pure (.variant j [])
    | none => errEnum s.strbuf
  have hr : deJsonEnum (jNext fl) n de vars st =
      (if st.tok = .curlyOpen ∧ vars.any (fun v => !v.isUnit) then
        (curlyOpen (jNext fl) >>= fun _ => expectTok (jNext fl) .str "String" >>= fun _ => colon (jNext fl) >>= fun _ =>
          M.get >>= fun s => inner s)
      else if st.tok = .str ∧ vars.any (fun v => v.isUnit) then
        (expectTok (jNext fl) .str "String" >>= fun _ => M.get >>= fun s => innerU s)
      else errToken "String or {") st := rfl
  have hetok : Agree ((errToken "String or {" : PM Val) st) .err (fun s => JPos fl s rest tail) := ⟨_, _, rfl⟩
  rw [hr]
  have hobj : ∀ ms trail, J = .obj ms trail → st.tok = .curlyOpen := fun ms trail e => (JPos.facts h).2.2.2.1.2 ⟨ms, trail, e⟩
  cases J with
  | null =>
    rw [if_neg (by rw [(JPos.facts h).2.2.2.1]; simp), if_neg (by rw [(JPos.facts h).1]; simp)]; exact hetok
  | bool b =>
    rw [if_neg (by rw [(JPos.facts h).2.2.2.1]; simp), if_neg (by rw [(JPos.facts h).1]; simp)]; exact hetok
  | num t =>
    rw [if_neg (by rw [(JPos.facts h).2.2.2.1]; simp), if_neg (by rw [(JPos.facts h).1]; simp)]; exact hetok
  | arr xs tr =>
    rw [if_neg (by rw [(JPos.facts h).2.2.2.1]; simp), if_neg (by rw [(JPos.facts h).1]; simp)]; exact hetok
  | str s =>
    rw [if_neg (by rw [(JPos.facts h).2.2.2.1]; simp)]
    have ht : st.tok = .str := (JPos.facts h).1.2 ⟨s, rfl⟩
    by_cases hu : vars.any (fun v => v.isUnit) = true
    · rw [if_pos ⟨ht, hu⟩]
      simp only [JTree.lexemes, List.cons_append, List.nil_append] at h
      have hsb : st.strbuf = s := At'.sb h s rfl
      obtain ⟨c, r, rfl, hc⟩ := hf
      obtain ⟨s1, e1, h1, hb, -⟩ := h.next
      refine Agree.step ((expectTok_ok ht).trans e1) ?_
      rw [hc.noStr.1] at hb
      show Agree (innerU s1 s1) _ _
      simp only [innerU, hb, Option.getD_none, hsb, decEnum]
      cases findVariant vars true s with
      | none => exact ⟨_, _, rfl⟩
      | some j => exact ⟨_, rfl, h1⟩
    · rw [if_neg (by simp [hu])]
      have : findVariant vars true s = none := findVariant_any (by simpa using hu)
      rw [decEnum, this]
      exact hetok
  | obj ms trail =>
    have ht := hobj ms trail rfl
    by_cases hu : vars.any (fun v => !v.isUnit) = true
    · rw [if_pos ⟨ht, hu⟩]
      rw [JTree.lexemes_obj] at h
      simp only [List.cons_append, List.append_assoc, List.nil_append] at h
      obtain ⟨s1, e1, h1⟩ := h.next' (by simp)
      refine Agree.step ((expectTok_ok ht).trans e1) ?_
      cases ms with
      | nil =>
        refine Agree.fail ?_
        obtain ⟨e, he⟩ := expectTok_err (nx := jNext fl) (what := "String") (st := s1) (t := .str)
          (by rw [show s1.tok = _ from h1.tok]; decide)
        exact ⟨e, s1, he⟩
      | cons m ms =>
        obtain ⟨key, v⟩ := m
        obtain ⟨sep, e1, e2, _, e5⟩ := commaLexemes_cons trail (key.lexemes ++ .punct .colon :: v.lexemes)
          (ms.map fun m => m.1.lexemes ++ .punct .colon :: m.2.lexemes) (.punct .curlyClose :: rest)
        rw [List.map_cons, e1] at h1
        simp only [List.append_assoc, List.cons_append] at h1
        by_cases hs : ∃ s, key = .str s
        · obtain ⟨key, rfl⟩ := hs
          simp only [JTree.lexemes, List.cons_append, List.nil_append] at h1
          have hsb : s1.strbuf = key := At'.sb h1 key rfl
          obtain ⟨s2, e2', h2, hb2, -⟩ := h1.next
          refine Agree.step ((expectTok_ok (by exact h1.tok)).trans e2') ?_
          have hb2 : s2.strbuf = key := by rw [hb2]; simpa [Lexeme.sb] using hsb
          obtain ⟨l, ls, el, hl⟩ := v.lexeme_tok
          have h2' := h2
          rw [el] at h2'
          obtain ⟨s3, e3, h3, hb3, -⟩ := h2'.next
          refine Agree.step ((expectTok_ok (by exact h2.tok)).trans e3) ?_
          have h3' : JPos fl s3 (v.lexemes ++ (sep ++ (commaLexemes trail (ms.map fun m => m.1.lexemes ++ .punct .colon :: m.2.lexemes) ++
              .punct .curlyClose :: rest))) tail := by rw [el]; exact h3
          show Agree (inner s3 s3) _ _
          have hvn : v.lexemes.length ≤ n := by
            have := obj_mem_len (tr := trail) (ms := (JTree.str key, v) :: ms) (List.mem_cons_self ..)
            simp only at this; omega
          -- reading the contents of a variant
          have hread : ∀ k, Agree ((match findVariant vars false k with
              | some j => (deJsonShape (jNext fl) n de (vars.getD j { name := [], shape := .unit }).shape >>= fun vs =>
                curlyClose (jNext fl) >>= fun _ => (pure (.variant j vs) : PM Val))
              | none => errEnum k) s3) (match findVariant vars false k with
              | some j => (decShape dec v (vars.getD j { name := [], shape := .unit }).shape).bind fun vs =>
                  if ms.isEmpty ∧ trail = false then .ok (.variant j vs) else .err
              | none => .err) (fun s => JPos fl s rest tail) := by
            intro k
            cases hv : findVariant vars false k with
            | none => exact ⟨_, _, rfl⟩
            | some j =>
              obtain ⟨var, hj, hvu, _⟩ := findVariant_lt hv
              have hg : vars.getD j { name := [], shape := .unit } = var := by
                rw [List.getD_eq_getElem?_getD, hj]; rfl
              simp only [hg]
              have hnu : var.shape ≠ .unit := by
                intro e; simp [Variant.isUnit, e] at hvu
              refine Agree.bind (deJsonShape_reads (hsome _ _ rfl _ (List.mem_cons_self ..))
                (hitems _ _ rfl _ (List.mem_cons_self ..)) hnone hno hvn hnu s3 _ tail (follow_sep e2 (.inr rfl)) h3') ?_
              intro vs s hs
              by_cases hx : ms.isEmpty = true ∧ trail = false
              · rw [if_pos hx]
                obtain ⟨hx, rfl⟩ := hx
                have : ms = [] := by simpa using hx
                subst this
                have hsep : sep = [] := by
                  have := congrArg List.length e1
                  simpa [commaLexemes] using this
                subst hsep
                obtain ⟨s4, e4, h4⟩ := hs.next' hf.ne
                exact Agree.step ((expectTok_ok (by exact hs.tok)).trans e4) ⟨s4, rfl, h4⟩
              · rw [if_neg hx]
                have hsep : sep = [.punct .comma] := by
                  rcases e2 with h | ⟨_, h1, h2⟩
                  · exact h
                  · exact absurd ⟨by simpa using h1, h2⟩ hx
                subst hsep
                refine Agree.fail ?_
                obtain ⟨e, he⟩ := expectTok_err (nx := jNext fl) (what := "}") (st := s) (t := .curlyClose)
                  (by rw [show s.tok = _ from hs.tok]; decide)
                exact ⟨e, s, he⟩
          by_cases hc : (∃ xs tr, v = .arr xs tr) ∨ ∃ ms tr, v = .obj ms tr
          · have hno3 : l.sb = none := by
              rcases hc with ⟨xs, tr, rfl⟩ | ⟨xs, tr, rfl⟩
              · rw [JTree.lexemes_arr] at el; injection el with el _; rw [← el]; rfl
              · rw [JTree.lexemes_obj] at el; injection el with el _; rw [← el]; rfl
            have hkey : s3.strbuf = key := by rw [hb3, hno3]; exact hb2
            have := hread key
            simp only [inner, hkey]
            rcases hc with ⟨xs, tr, rfl⟩ | ⟨xs, tr, rfl⟩
            · rw [decEnum]; exact this
            · rw [decEnum]; exact this
          · have h1 : ∀ xs tr, v ≠ .arr xs tr := fun xs tr e => hc (.inl ⟨xs, tr, e⟩)
            have h2 : ∀ xs tr, v ≠ .obj xs tr := fun xs tr e => hc (.inr ⟨xs, tr, e⟩)
            have hd : decEnum dec vars (some (.obj ((.str key, v) :: ms) trail)) = .err := by
              cases v with
              | arr xs tr => exact absurd rfl (h1 _ _)
              | obj xs tr => exact absurd rfl (h2 _ _)
              | _ => rfl
            rw [hd]
            have := hread s3.strbuf
            have he : (match findVariant vars false s3.strbuf with
              | some j => (decShape dec v (vars.getD j { name := [], shape := .unit }).shape).bind fun vs =>
                  if ms.isEmpty ∧ trail = false then .ok (.variant j vs) else .err
              | none => .err) = (.err : Dec Val) := by
              split
              · rw [decShape_scalar h1 h2]; rfl
              · rfl
            rw [he] at this
            exact this
        · have hd : decEnum dec vars (some (.obj ((key, v) :: ms) trail)) = .err := by
            unfold decEnum
            split
            · rename_i e; simp at e
            · rename_i e
              simp only [Option.some.injEq, JTree.obj.injEq, List.cons.injEq, Prod.mk.injEq] at e
              exact absurd ⟨_, e.1.1.1⟩ hs
            · rfl
          rw [hd]
          refine Agree.fail ?_
          obtain ⟨e, he⟩ := expectTok_err (nx := jNext fl) (what := "String") (st := s1) (t := .str)
            (by rw [Ne, (JPos.facts h1).1]; exact hs)
          exact ⟨e, s1, he⟩
    · rw [if_neg (by simp [hu]), if_neg (by rw [ht]; simp)]
      have hd : decEnum dec vars (some (.obj ms trail)) = .err := by
        have hnv : ∀ k, findVariant vars false k = none := fun k => findVariant_any (by
          simp only [Bool.not_eq_true] at hu; simpa using hu)
        unfold decEnum
        split
        · rename_i e; simp at e
        · split
          · rw [hnv]
          · rw [hnv]
          · rfl
        · rfl
      rw [hd]; exact hetok

end NS
