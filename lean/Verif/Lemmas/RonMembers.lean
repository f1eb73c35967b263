import Verif.Lemmas.RonRead2
import Verif.Lemmas.RonSim
import Verif.Lemmas.JsonMissing
/-! Unknown and missing fields of RON structs. -/
namespace NS
variable {fl : FloatOps} {env : Env}
namespace Ron

theorem doc_start {l ls txt tail} (h : RDoc fl (l :: ls) txt tail) :
    ∃ s1, rNext fl (initSt rcol txt) = .ok () s1 ∧ RPos fl s1 (l :: ls) tail :=
  h.stream.start (by cases txt <;> simp [initSt, Cur.next]; split <;> rfl)

theorem full_start {x : RTree} {txt} (h : RText fl x txt) :
    ∃ s1, rNext fl (initSt rcol txt) = .ok () s1 ∧ RPos fl s1 (x.lexemes ++ [.eof]) [] := by
  have hs := RFull.stream h
  obtain ⟨l, ls, el, _⟩ := Ron.start x
  rw [el] at hs ⊢
  exact hs.start (by cases txt <;> simp [initSt, Cur.next]; split <;> rfl)

theorem rMember_comma {de : Ty → PM Val} {fs : List Field} {p : RMember} {acc st r tail}
    (hd : DistinctNames fs) (hk : NotBool p.1 ∧ ∃ f ∈ fs, f.skip = false ∧ f.jsonName = p.1)
    (hr : ∀ f ∈ fs, f.skip = false → f.jsonName = p.1 → Reads fl (de f.ty) p.2.1.lexemes p.2.2) (hne' : r ≠ [])
    (h : RPos fl st (.word p.1 :: .punct .colon :: (p.2.1.lexemes ++ .punct .comma :: r)) tail) :
    Yields (rMember (rNext fl) de fs acc st) (mstep fs acc p) fun s => RPos fl s r tail := by
  obtain ⟨hw, f, hf, hs, hn⟩ := hk
  obtain ⟨i, hi⟩ := List.getElem?_of_mem hf
  have hff : findField fs p.1 = some i := (findField_iff hd).2 ⟨f, hi, hs, hn⟩
  have hne : fs.isEmpty = false := by cases fs with
    | nil => cases hf
    | cons => rfl
  have hget : fs.getD i { name := [], ty := .unit } = f := by simp [List.getD, hi]
  have hib : st.identbuf = p.1 := At'.ib h p.1 rfl
  refine Yields.get ?_
  rw [hib]
  refine Yields.bind (a := mstep fs acc p) (Q := fun s => RPos fl s (.punct .comma :: r) tail) ?_
    fun s1 h1 => Yields.bind (Q := fun s => RPos fl s r tail) (a := ()) ?_ fun s2 h2 => .pure h2
  · unfold rMemberValue mstep
    rw [hne, hff]
    simp only [hget]
    refine Yields.bind (a := ()) (Q := fun s => RPos fl s (p.2.1.lexemes ++ .punct .comma :: r) tail) ?_ fun s1 h1 => ?_
    · refine Yields.bind (h.next' (by simp)) fun s1 h1 => ?_
      exact expect h1 rfl (start_ne _ _)
    · exact Yields.bind (hr f hf hs hn s1 _ tail (Follow.fits ⟨_, _, rfl, by simp [IsFollow]⟩) h1) fun s2 h2 => .pure h2
  · have ht : s1.tok = .comma := h1.tok
    show Yields ((if s1.tok = .comma then rNext fl else if s1.tok = .parenClose then Pure.pure () else errToken _ : PM Unit) s1) _ _
    rw [if_pos ht]
    exact h1.next' hne'

/-- Reading some members and then an unknown name. -/
theorem unknown_loop {de : Ty → PM Val} {fs : List Field} (hd : DistinctNames fs) (hne : fs ≠ []) {k r tail}
    (hk : NotBool k) (hun : ∀ f ∈ fs, f.skip = false → f.jsonName ≠ k) (ps : List RMember) (hkn : KnownMembers fs ps)
    (hr : ∀ p ∈ ps, ∀ f ∈ fs, f.skip = false → f.jsonName = p.1 → Reads fl (de f.ty) p.2.1.lexemes p.2.2)
    (n : Nat) (hn : ps.length < n) (acc) (st : PSt) (h : RPos fl st (memberLexemes ps ++ .word k :: r) tail) :
    ∃ l c s, whileIs .ident (rMember (rNext fl) de fs) n acc st = .err ⟨l, c, .unexpectedKey k⟩ s := by
  induction ps generalizing n acc st with
  | nil =>
    obtain ⟨n, rfl⟩ : ∃ m, n = m + 1 := ⟨n - 1, by omega⟩
    have htok : st.tok = .ident := by rw [show st.tok = rtok (.word k) from h.tok]; simp [rtok, hk.1, hk.2]
    have hib : st.identbuf = k := At'.ib h k rfl
    have hf : findField fs k = none := by
      unfold findField
      rw [List.findIdx?_eq_none_iff]
      intro f hf
      cases hs : f.skip with
      | true => rfl
      | false => simpa [Field.key, Field.jsonName] using hun f hf hs
    have hne' : fs.isEmpty = false := by cases fs <;> simp_all
    refine ⟨st.cur.line, st.cur.col, st, ?_⟩
    show (if st.tok = .ident then (rMember (rNext fl) de fs acc >>= whileIs .ident _ n) else Pure.pure acc : PM _) st = _
    rw [if_pos htok]
    refine M.bind_err ?_
    show (rMemberValue (rNext fl) de fs acc st.identbuf >>= _ : PM _) st = _
    refine M.bind_err ?_
    unfold rMemberValue
    rw [hib, hne', hf]
    rfl
  | cons p ps ih =>
    obtain ⟨n, rfl⟩ : ∃ m, n = m + 1 := ⟨n - 1, by omega⟩
    have hp := hkn p (List.mem_cons_self ..)
    have e : memberLexemes (p :: ps) ++ .word k :: r =
        .word p.1 :: .punct .colon :: (p.2.1.lexemes ++ .punct .comma :: (memberLexemes ps ++ .word k :: r)) := by
      simp [memberLexemes]
    rw [e] at h
    have htok : st.tok = .ident := by rw [show st.tok = rtok (.word p.1) from h.tok]; simp [rtok, hp.1.1, hp.1.2]
    obtain ⟨s1, e1, h1⟩ := rMember_comma (acc := acc) hd hp (hr p (List.mem_cons_self ..)) (by simp) h
    obtain ⟨l, c, s, e2⟩ := ih (fun q hq => hkn q (List.mem_cons_of_mem _ hq)) (fun q hq => hr q (List.mem_cons_of_mem _ hq))
      n (by simp at hn; omega) (mstep fs acc p) s1 h1
    refine ⟨l, c, s, ?_⟩
    show (if st.tok = .ident then (rMember (rNext fl) de fs acc >>= whileIs .ident _ n) else Pure.pure acc : PM _) st = _
    rw [if_pos htok, M.bind_ok e1]
    exact e2

theorem unknown_named {de : Ty → PM Val} {cd : Bool} {fs : List Field} (hd : DistinctNames fs) (hne : fs ≠ []) {k r tail}
    (hk : NotBool k) (hun : ∀ f ∈ fs, f.skip = false → f.jsonName ≠ k) (ps : List RMember) (hkn : KnownMembers fs ps)
    (hr : ∀ p ∈ ps, ∀ f ∈ fs, f.skip = false → f.jsonName = p.1 → Reads fl (de f.ty) p.2.1.lexemes p.2.2)
    (n : Nat) (hn : ps.length < n) (st : PSt)
    (h : RPos fl st (.punct .parenOpen :: (memberLexemes ps ++ .word k :: r)) tail) :
    ∃ l c s, deRonNamed (rNext fl) n de cd fs st = .err ⟨l, c, .unexpectedKey k⟩ s := by
  obtain ⟨s1, e1, h1⟩ : Yields (parenOpen (rNext fl) st) () fun s => RPos fl s _ tail := expect h rfl (by simp)
  obtain ⟨l, c, s, e2⟩ := unknown_loop hd hne hk hun ps hkn hr n hn (fs.map fun _ => none) s1 h1
  refine ⟨l, c, s, ?_⟩
  unfold deRonNamed
  rw [M.bind_ok e1]
  exact M.bind_err e2

/-- Reading members, one of the fields being absent. -/
theorem missing_named {de : Ty → PM Val} {cd : Bool} {fs : List Field} (hd : DistinctNames fs) {tr tail}
    (ps : List RMember) (hkn : KnownMembers fs ps)
    (hr : ∀ p ∈ ps, ∀ f ∈ fs, f.skip = false → f.jsonName = p.1 → Reads fl (de f.ty) p.2.1.lexemes p.2.2)
    {i : Nat} {f : Field} (hi : fs[i]? = some f) (hno : ∀ p ∈ ps, p.1 ≠ f.jsonName) (hab : ¬ f.mayBeAbsent cd)
    (hfirst : ∀ j g, j < i → fs[j]? = some g → (∀ p ∈ ps, p.1 ≠ g.jsonName) → g.mayBeAbsent cd)
    (n : Nat) (hn : ps.length < n) (st : PSt) {rest} (hrest : Follow rest)
    (h : RPos fl st ((RTree.fields (ps.map fun p => (p.1, p.2.1)) tr).lexemes ++ rest) tail) :
    ∃ l c s, deRonNamed (rNext fl) n de cd fs st = .err ⟨l, c, .missingKey f.name⟩ s := by
  rw [RTree.lexemes_fields] at h
  simp only [List.cons_append, List.append_assoc, List.nil_append, List.map_map] at h
  obtain ⟨s1, e1, h1⟩ : Yields (parenOpen (rNext fl) st) () fun s => RPos fl s _ tail := expect h rfl (by simp)
  obtain ⟨s2, e2, h2⟩ := whileIs_yields
    (lx := (fun m : List Char × RTree => .word m.1 :: .punct .colon :: m.2.lexemes) ∘ fun p : RMember => (p.1, p.2.1))
    (step := mstep fs) (item := rMember (rNext fl) de fs) ps (fun p hp => by
      have := (hkn p hp).1
      exact ⟨_, _, rfl, by simp [rtok, this.1, this.2]⟩)
    (fun p hp acc s sep ys tr' hsep hpos => rMember_ok hd (hkn p hp) (hr p hp) hsep (by simpa using hpos))
    n hn (fs.map fun _ => none) tr s1 h1
  obtain ⟨s3, e3, h3⟩ : Yields (parenClose (rNext fl) s2) () fun s => RPos fl s _ tail := expect h2 rfl hrest.ne
  have hil : i < fs.length := by
    rcases Nat.lt_or_ge i fs.length with h | h
    · exact h
    · rw [List.getElem?_eq_none h] at hi; cases hi
  have e4 := unwrapFields_missing (cd := cd) fs (ps.foldl (mstep fs) (fs.map fun _ => none)) (by rw [msteps_length]; simp) i f hi
    (by
      rw [msteps_none ps]
      · simp [hil]
      · intro q hq e
        obtain ⟨f', hf', _, hn⟩ := (findField_iff hd).1 e
        rw [hi] at hf'; injection hf' with hf'; subst hf'
        exact hno q hq hn.symm) hab
    (fun j g hj hg hnone => by
      by_cases hs : g.skip = true
      · exact .inl hs
      · refine hfirst j g hj hg fun p hp e => ?_
        have hfind : findField fs p.1 = some j := (findField_iff hd).2 ⟨g, hg, by simpa using hs, e.symm⟩
        -- some member sets position j, so it is not `none` at the end
        have hjl : j < fs.length := by omega
        have key : ∀ (qs : List RMember) (acc : List (Option Val)), acc.length = fs.length →
            (p ∈ qs ∨ ∃ v, acc[j]? = some (some v)) → ∃ v, (qs.foldl (mstep fs) acc)[j]? = some (some v) := by
          intro qs
          induction qs with
          | nil => intro acc _ h; simpa using h
          | cons q qs ih =>
            intro acc hl h
            rw [List.foldl_cons]
            refine ih _ (by rw [mstep_length]; exact hl) ?_
            by_cases hq : findField fs q.1 = some j
            · refine .inr ⟨q.2.2, ?_⟩
              simp only [mstep, hq]
              simp [hl, hjl]
            · rcases h with h | h
              · rcases List.mem_cons.1 h with rfl | h
                · exact absurd hfind hq
                · exact .inl h
              · rw [mstep_ne hq]; exact .inr h
        obtain ⟨v, hv⟩ := key ps (fs.map fun _ => none) (by simp) (.inl hp)
        rw [hv] at hnone
        injection hnone with hnone
        cases hnone) s3
  refine ⟨s3.cur.line, s3.cur.col, s3, ?_⟩
  unfold deRonNamed
  rw [M.bind_ok e1, M.bind_ok e2, M.bind_ok e3]
  exact e4


theorem reads_members (hkeys : LawfulKeys env) {fs : List Field} (ps : List RMember)
    (hr : ∀ p ∈ ps, ∀ f ∈ fs, f.skip = false → f.jsonName = p.1 → RonMeans env fl f.ty p.2.1 p.2.2) :
    Ev fun n => ∀ p ∈ ps, ∀ f ∈ fs, f.skip = false → f.jsonName = p.1 → Reads fl (deRon env fl n f.ty) p.2.1.lexemes p.2.2 := by
  refine Ev.list ps fun p hp => Ev.list fs fun f hf => ?_
  by_cases h : f.skip = false ∧ f.jsonName = p.1
  · exact (reads hkeys (hr p hp f hf h.1 h.2)).mono fun n h' _ _ => h'
  · exact .of fun n h1 h2 => absurd ⟨h1, h2⟩ h

/-- If the struct reader fails, so does `deserialize_ron`. -/
theorem struct_fails {i : Nat} {fs cd nul} (hd : env.defs[i]? = some (.struct fs cd nul)) {txt ls tail why}
    (hst : ∃ s1, rNext fl (initSt rcol txt) = .ok () s1 ∧ RPos fl s1 ls tail)
    (h : Ev fun n => ∀ st, RPos fl st ls tail → ∃ l c s, deRonNamed (rNext fl) n (deRon env fl n) cd fs st = .err ⟨l, c, why⟩ s) :
    RejectsWith (fun n => deserializeRon env fl n (.named i) txt) why := by
  obtain ⟨s1, e1, h1⟩ := hst
  obtain ⟨n, h⟩ := h
  obtain ⟨l, c, s, e2⟩ := h n (Nat.le_refl _) s1 h1
  refine rrejectsWith_of_run (n := n + 1) (l := l) (c := c) (s := s) ?_
  show (rNext fl >>= fun _ => deRon env fl (n + 1) (.named i) : PM Val) (initSt rcol txt) = _
  rw [M.bind_ok e1]
  simp only [deRon, hd]
  exact M.bind_err e2

/-- If the reader of a struct variant fails, so does `deserialize_ron`. -/
theorem variant_fails {i : Nat} {vars w j var fs} (hd : env.defs[i]? = some (.enum vars)) (hc : VariantCalled vars w j var)
    (hsh : var.shape = .named fs) {txt l' ls tail why} (hl : l'.ib = none)
    (hst : ∃ s1, rNext fl (initSt rcol txt) = .ok () s1 ∧ RPos fl s1 (.word w :: l' :: ls) tail)
    (h : Ev fun n => ∀ st, RPos fl st (l' :: ls) tail →
      ∃ l c s, deRonNamed (rNext fl) n (deRon env fl n) false fs st = .err ⟨l, c, why⟩ s) :
    RejectsWith (fun n => deserializeRon env fl n (.named i) txt) why := by
  obtain ⟨s1, e1, h1⟩ := hst
  obtain ⟨n, h⟩ := h
  obtain ⟨s2, e2, h2, hib⟩ := ident_ok (what := "Identifier") h1 hc.2.2.1 hl
  obtain ⟨l, c, s, e3⟩ := h n (Nat.le_refl _) s2 h2
  refine rrejectsWith_of_run (n := n + 1) (l := l) (c := c) (s := s) ?_
  show (rNext fl >>= fun _ => deRon env fl (n + 1) (.named i) : PM Val) (initSt rcol txt) = _
  rw [M.bind_ok e1]
  simp only [deRon, hd]
  unfold deRonEnum
  rw [M.bind_ok e2]
  show (match vars.findIdx? (fun v => v.name == s2.identbuf) with
    | some j => _
    | none => _ : PM Val) s2 = _
  rw [hib, findVariant_called hc]
  have hg : (vars.getD j { name := [], shape := .unit }).shape = .named fs := by
    rw [List.getD_eq_getElem?_getD, hc.1]; exact hsh
  simp only [hg, deRonShape]
  exact M.bind_err e3

end Ron
end NS
