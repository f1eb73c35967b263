import Verif.Lemmas.CutDur
/-! Reading a JSON text that breaks off: structs and enums. -/
namespace NS
variable {fl : FloatOps} {env : Env} {B : Nat}

theorem Cuts.unwrapFields (cd : Bool) (fs : List Field) (acc : List (Option Val)) {s : PSt} :
    Cuts B (fun _ => NS.unwrapFields cd fs acc) s (fun _ s' => s' = s) := by
  obtain ⟨o, g, e⟩ := Ends.unwrapFields (B := B) (I := fun t => t = s) (P := False) (H := False) cd fs acc (s := s) rfl
  refine ⟨o, ?_, e⟩
  cases o with
  | ok a s' => exact ⟨trivial, g.1⟩
  | err _ _ => trivial
  | panic => exact g
  | oof => exact g

theorem str_of {J : JTree} {tail : List Lexeme} {s : PSt} (h : JFeeds fl (J.lexemes ++ tail) s) (ht : s.tok = .str) : J = .str s.strbuf := by
  have key : ∀ {l ls}, JFeeds fl (l :: ls) s → Tok.str = jtok l ∧ ∀ k, l = .str k → s.strbuf = k := by
    intro l ls h
    rcases h with h | h
    · exact absurd ht (h.tok_ne (by decide) rfl)
    · exact ⟨ht.symm.trans h.1, h.2.1⟩
  cases J with
  | null => rw [JTree.lexemes] at h; exact absurd (key h).1 (by decide)
  | bool b => cases b <;> rw [JTree.lexemes] at h <;> exact absurd (key h).1 (by decide)
  | num n => rw [JTree.lexemes] at h; exact absurd (key h).1 (by cases n <;> exact fun h => by cases h)
  | str k => rw [JTree.lexemes] at h; rw [(key h).2 k rfl]
  | arr xs tr => rw [JTree.lexemes_arr] at h; exact absurd (key h).1 (by exact fun h => by cases h)
  | obj xs tr => rw [JTree.lexemes_obj] at h; exact absurd (key h).1 (by exact fun h => by cases h)

theorem findField_some {fs : List Field} {k : List Char} (h : ∃ f ∈ fs, f.skip = false ∧ f.jsonName = k) :
    ∃ i, findField fs k = some i ∧ fs.getD i { name := [], ty := .unit } ∈ fs ∧ (fs.getD i { name := [], ty := .unit }).skip = false ∧
      (fs.getD i { name := [], ty := .unit }).jsonName = k := by
  obtain ⟨f, hf, hs, hk⟩ := h
  cases hff : findField fs k with
  | none =>
    have := List.findIdx?_eq_none_iff.1 hff f hf
    have hk' : f.key = k := hk
    simp [hs, hk'] at this
  | some i =>
    obtain ⟨h1, h2, _⟩ := List.findIdx?_eq_some_iff_getElem.1 hff
    refine ⟨i, rfl, ?_⟩
    rw [List.getD_eq_getElem?_getD, List.getElem?_eq_getElem h1]
    simp only [Option.getD_some]
    simp only [Bool.and_eq_true, Bool.not_eq_true', beq_iff_eq] at h2
    exact ⟨List.getElem_mem _, h2.1, h2.2⟩

theorem Cuts.deField {de : Nat → Ty → PM Val} {f : Field} {x : JTree} (h : Follows fl B (fun n => de n f.ty) x)
    (h' : ∀ t, f.ty = .option t → Follows fl B (fun n => de n t) x) : Follows fl B (fun n => NS.deField (de n) f) x := by
  intro s tail hs
  unfold NS.deField
  generalize f.optProxy = p
  generalize hT : f.ty = T at *
  cases p with
  | false => exact h s tail hs
  | true =>
    cases T with
    | option t => exact Ends.bind (f := fun _ v => Pure.pure (Val.some v)) (h' t rfl s tail hs) fun v s1 _ h1 => Cuts.pure h1
    | _ => exact h s tail hs

/-- Structs and struct variants. -/
theorem Cuts.named {de : Nat → Ty → PM Val} {fs : List Field} (cd : Bool) {J : JTree}
    (hJ : ∀ ms tr, J = .obj ms tr → ms.length < B ∧ (fs ≠ [] → ∀ k x, (.str k, x) ∈ ms → ∃ f ∈ fs, f.skip = false ∧ f.jsonName = k) ∧
      ∀ f ∈ fs, f.skip = false → ∀ x, (.str f.jsonName, x) ∈ ms → Follows fl B (fun n => NS.deField (de n) f) x)
    {s : PSt} {tail : List Lexeme} (hF : JFeeds fl (J.lexemes ++ tail) s) :
    Cuts B (fun n => deJsonNamed (jNext fl) n (de n) cd fs) s (fun _ s' => JFeeds fl tail s') := by
  refine Cuts.expectThen _ fun s1 ht e1 => ?_
  obtain ⟨ms, tr, rfl, hn⟩ := obj_of hF ht
  obtain ⟨hB, hk, hv⟩ := hJ ms tr rfl
  have hc : Closer .curlyClose := .inr rfl
  refine Ends.bind (f := fun _ acc => curlyClose (jNext fl) >>= fun _ => NS.unwrapFields cd fs acc)
    (Cuts.whileStr (fun ys s => JFeeds fl (commaLexemes tr (ys.map memLex) ++ .punct .curlyClose :: tail) s)
      (body := fun n => jMember (jNext fl) n (de n) fs) (a := fs.map fun _ => none)
      (fun s h => ?_) ms (fun m rest acc s hm h htk => ?_) (hn s1 e1) hB) fun acc s2 _ ⟨xs, hxs, h2⟩ => ?_
  · rcases h with h | h
    · exact h.tok_ne (by decide) rfl
    · rw [h.1]; exact fun h => by cases h
  · refine Ends.get ?_
    by_cases hfs : fs.isEmpty = true
    · refine ⟨.err ⟨s.cur.line, s.cur.col, .unexpectedToken s.tok ", or }".toList⟩ s, trivial, fun n _ => ?_⟩
      show (jMemberValue (jNext fl) n (de n) fs acc s.strbuf >>= fun a => eatCommaCurly (jNext fl) >>= fun _ => Pure.pure a) s = _
      unfold jMemberValue
      rw [if_pos hfs, M.pure_bind, M.bind_def]
      have : eatCommaCurly (jNext fl) s = errToken ", or }" s := by
        show eatComma (jNext fl) _ _ s = _
        rw [eatComma_eq, htk]; rfl
      rw [this]; rfl
    · rw [List.map_cons, commaLexemes_after, memLex] at h
      simp only [List.append_assoc, List.cons_append] at h
      have hkey : m.1 = .str s.strbuf := str_of h htk
      have hm' : (.str s.strbuf, m.2) ∈ ms := hkey ▸ hm
      obtain ⟨i, hi, hmem, hskip, hname⟩ := findField_some (hk (by rintro rfl; simp at hfs) _ _ hm')
      refine Ends.bind (f := fun _ a => eatCommaCurly (jNext fl) >>= fun _ => Pure.pure a)
        (Q := fun _ t => JFeeds fl (afterItem tr (rest.map memLex) ++ .punct .curlyClose :: tail) t) ?_ fun a s2 _ h2 =>
          Ends.bind (f := fun _ _ => Pure.pure a) (h2.eat hc _) fun _ s3 _ h3 => Cuts.pure h3
      unfold jMemberValue
      simp only [if_neg hfs, hi]
      generalize fs.getD i { name := [], ty := .unit } = f at *
      refine Ends.bind (f := fun n _ => NS.deField (de n) f >>= fun v => Pure.pure (acc.set i (.some v))) (x := fun _ => nextColon (jNext fl))
        (Q := fun _ t => JFeeds fl (m.2.lexemes ++ (afterItem tr (rest.map memLex) ++ .punct .curlyClose :: tail)) t) ?_ fun _ s2 _ h2 => ?_
      · refine Ends.bind (f := fun _ _ => colon (jNext fl)) Cuts.nx fun _ s2 _ e2 => ?_
        have lf : Cuts.Leaf fl s () s2 := ⟨.inr htk, s, rfl, e2⟩
        exact (h.leaf lf).expect (by decide) rfl _
      · exact Ends.bind (f := fun _ v => Pure.pure (acc.set i (.some v))) (hv f hmem hskip m.2 (hname ▸ hm') s2 _ h2)
          fun _ s3 _ h3 => Cuts.pure h3
  · refine Ends.bind (f := fun _ _ => NS.unwrapFields cd fs acc) (h2.close (members_begin xs) hc _) fun _ s3 _ h3 => ?_
    exact (Cuts.unwrapFields cd fs acc).weaken fun _ s4 _ e => e ▸ h3

/-- Where an object begins, its first member. -/
theorem obj_first {J : JTree} {tail : List Lexeme} {s s1 : PSt} (h : JFeeds fl (J.lexemes ++ tail) s) (ht : s.tok = .curlyOpen)
    (e1 : jNext fl s = .ok () s1) (h1 : s1.tok = .str) :
    ∃ x rest tr, J = .obj ((.str s1.strbuf, x) :: rest) tr ∧
      JFeeds fl ((JTree.str s1.strbuf).lexemes ++ .punct .colon :: (x.lexemes ++ (afterItem tr (rest.map memLex) ++ .punct .curlyClose :: tail))) s1 := by
  obtain ⟨ms, tr, rfl, hn⟩ := obj_of h ht
  have h2 := hn s1 e1
  cases ms with
  | nil =>
    rcases h2 with h2 | h2
    · exact absurd h1 (h2.tok_ne (by decide) rfl)
    · exact absurd (h1.symm.trans h2.1) (by exact fun h => by cases h)
  | cons m rest =>
    rw [List.map_cons, commaLexemes_after, memLex] at h2
    simp only [List.append_assoc, List.cons_append] at h2
    have hk := str_of h2 h1
    obtain ⟨a, x⟩ := m
    simp only at hk
    subst hk
    exact ⟨x, rest, tr, rfl, h2⟩

/-- Enums. -/
theorem Cuts.jEnum (hfl : FloatLaws fl) {de : Nat → Ty → PM Val} {vars : List Variant} {J : JTree}
    (hJ : ∀ k x rest tr, J = .obj ((.str k, x) :: rest) tr → ∀ v ∈ vars, v.jsonName = k →
      (∀ ts, v.shape = .tuple ts → (∀ t ∈ ts, Leafy fl B fun n => de n t) ∧ ∀ xs tr, x = .arr xs tr → ∀ p ∈ ts.zip xs, Follows fl B (fun n => de n p.1) p.2) ∧
      ∀ fs, v.shape = .named fs → ∀ s tail, JFeeds fl (x.lexemes ++ tail) s →
        Cuts B (fun n => deJsonNamed (jNext fl) n (de n) false fs) s (fun _ s' => JFeeds fl tail s'))
    {s : PSt} {tail : List Lexeme} (hF : JFeeds fl (J.lexemes ++ tail) s) :
    Cuts B (fun n => deJsonEnum (jNext fl) n (de n) vars) s (fun _ s' => JFeeds fl tail s') := by
  unfold deJsonEnum
  refine Ends.get ?_
  by_cases hc : s.tok = .curlyOpen ∧ vars.any (fun v => !v.isUnit) = true
  · simp only [if_pos hc]
    refine Cuts.expectThen _ fun s1 ht e1 => Cuts.expectThen _ fun s2 ht1 e2 => Cuts.expectThen _ fun s3 ht2 e3 => ?_
    obtain ⟨x, rest, tr, rfl, h1⟩ := obj_first hF ht e1 ht1
    have lf : Cuts.Leaf fl s1 () s2 := ⟨.inr ht1, s1, rfl, e2⟩
    have h2 := h1.leaf lf
    have h3 : JFeeds fl (x.lexemes ++ (afterItem tr (rest.map memLex) ++ .punct .curlyClose :: tail)) s3 := by
      rcases h2 with h2 | h2
      · exact absurd ht2 (h2.tok_ne (by decide) rfl)
      · exact h2.2.2.next e3
    refine Ends.get ?_
    cases hfv : findVariant vars false s3.strbuf with
    | none => exact Ends.fail trivial _
    | some j =>
      obtain ⟨hj, hj2, _⟩ := List.findIdx?_eq_some_iff_getElem.1 hfv
      have hv : vars.getD j { name := [], shape := .unit } = vars[j] := by
        rw [List.getD_eq_getElem?_getD, List.getElem?_eq_getElem hj]; rfl
      have hvm : vars[j] ∈ vars := List.getElem_mem _
      simp only [hv]
      generalize vars[j] = v at *
      simp only [Bool.and_eq_true, beq_iff_eq] at hj2
      have hstr : s3.tok ≠ .str → s3.strbuf = s1.strbuf := fun h => by
        rw [jNext_strbuf hfl e3 h, jNext_strbuf hfl e2 (by rw [ht2]; decide)]
      refine Ends.bind (f := fun n vs => curlyClose (jNext fl) >>= fun _ => Pure.pure (Val.variant j vs))
        (Q := fun _ t => JFeeds fl (afterItem tr (rest.map memLex) ++ .punct .curlyClose :: tail) t) ?_ fun vs s4 _ h4 =>
          Ends.bind (f := fun _ _ => Pure.pure _) (h4.closeAfter (.inr rfl) _) fun _ s5 _ h5 => Cuts.pure h5
      cases hsh : v.shape with
      | unit => rw [Variant.isUnit, hsh] at hj2; exact absurd hj2.1 (by decide)
      | tuple ts =>
        refine Cuts.expectThen _ fun s4 ht3 e4 => ?_
        obtain ⟨xs, tr', rfl, hn⟩ := arr_of h3 ht3
        obtain ⟨g1, g2⟩ := (hJ _ _ _ _ rfl v hvm (hj2.2.trans (hstr (by rw [ht3]; decide)))).1 ts hsh
        refine Ends.bind (f := fun _ vs => blockClose (jNext fl) >>= fun _ => Pure.pure vs)
          (Cuts.deTysEat g1 (g2 xs tr' rfl) (hn s4 e4)) fun vs s5 _ ⟨ys, h5⟩ => ?_
        exact Ends.bind (f := fun _ _ => Pure.pure vs) (h5.close (items_begin ys) (.inl rfl) _) fun _ s6 _ h6 => Cuts.pure h6
      | named fs =>
        by_cases ht3 : s3.tok = .curlyOpen
        · exact (hJ _ _ _ _ rfl v hvm (hj2.2.trans (hstr (by rw [ht3]; decide)))).2 fs hsh s3 _ h3
        · exact Cuts.miss ht3 _ _
  · simp only [if_neg hc]
    by_cases hc : s.tok = .str ∧ vars.any (fun v => v.isUnit) = true
    · simp only [if_pos hc]
      refine Cuts.expectThen _ fun s1 ht e1 => Ends.get ?_
      have lf : Cuts.Leaf fl s () s1 := ⟨.inr ht, s, rfl, e1⟩
      cases hfv : findVariant vars true s1.strbuf with
      | none => exact Ends.fail trivial _
      | some j => exact Cuts.pure (hF.leaf lf)
    · simp only [if_neg hc]
      exact Ends.fail trivial _

end NS
