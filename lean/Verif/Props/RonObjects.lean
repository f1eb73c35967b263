import Verif.Lemmas.RonMembers
import Verif.Lemmas.RonRender
import Verif.Props.RonRound
import Verif.Props.JsonObjects
/-! # Properties C42, C43: fields of RON structs

`ps` are the members of a struct in their order: name, RON value and the Rust value it denotes at the
type of the field with that name. -/
namespace NS
variable {env : Env} {fl : FloatOps}

/-! ## C42 -/

/-- **C42**: a name that is not that of a field (or that of a skipped field) is the error
`UnexpectedKey` with that name.  Before it any readable members may have been read; what follows it
(`tail`) is arbitrary. -/
theorem C42_ron_unknown_field (hkeys : LawfulKeys env) {i : Nat} {fs cd nul} (hd : env.defs[i]? = some (.struct fs cd nul)) (hne : fs ≠ [])
    (hdn : DistinctNames fs) {k : List Char} (hk : NotBool k) (hun : ∀ f ∈ fs, f.skip = false → f.jsonName ≠ k)
    (ps : List RMember) (hkn : KnownMembers fs ps)
    (hr : ∀ p ∈ ps, ∀ f ∈ fs, f.skip = false → f.jsonName = p.1 → RonMeans env fl f.ty p.2.1 p.2.2) {txt tail}
    (hx : RDoc fl (.punct .parenOpen :: (memberLexemes ps ++ [.word k])) txt tail) :
    RejectsWith (fun n => deserializeRon env fl n (.named i) txt) (.unexpectedKey k) := by
  refine Ron.struct_fails hd (Ron.doc_start hx) ?_
  refine ((Ron.reads_members hkeys ps hr).and (Ron.Ev.big ps.length)).mono fun n ⟨h1, h2⟩ st hst => ?_
  exact Ron.unknown_named hdn hne hk hun ps hkn h1 n h2 st hst

/-- **C42** in struct variants. -/
theorem C42_ron_unknown_field_in_variant (hkeys : LawfulKeys env) {i : Nat} {vars w j var fs} (hd : env.defs[i]? = some (.enum vars))
    (hc : VariantCalled vars w j var) (hsh : var.shape = .named fs) (hne : fs ≠ [])
    (hdn : DistinctNames fs) {k : List Char} (hk : NotBool k) (hun : ∀ f ∈ fs, f.skip = false → f.jsonName ≠ k)
    (ps : List RMember) (hkn : KnownMembers fs ps)
    (hr : ∀ p ∈ ps, ∀ f ∈ fs, f.skip = false → f.jsonName = p.1 → RonMeans env fl f.ty p.2.1 p.2.2) {txt tail}
    (hx : RDoc fl (.word w :: .punct .parenOpen :: (memberLexemes ps ++ [.word k])) txt tail) :
    RejectsWith (fun n => deserializeRon env fl n (.named i) txt) (.unexpectedKey k) := by
  refine Ron.variant_fails hd hc hsh rfl (Ron.doc_start hx) ?_
  refine ((Ron.reads_members hkeys ps hr).and (Ron.Ev.big ps.length)).mono fun n ⟨h1, h2⟩ st hst => ?_
  exact Ron.unknown_named hdn hne hk hun ps hkn h1 n h2 st hst

/-- The exception: in a struct without fields the error is about a token, not about the key. -/
theorem C42_ron_empty_struct {i : Nat} {cd nul} (hd : env.defs[i]? = some (.struct [] cd nul)) {k : List Char} (hk : NotBool k)
    {txt tail} (hx : RDoc fl [.punct .parenOpen, .word k] txt tail) :
    ∃ t needed, RejectsWith (fun n => deserializeRon env fl n (.named i) txt) (.unexpectedToken t needed) := by
  refine ⟨.ident, ", or )".toList, Ron.struct_fails hd (Ron.doc_start hx) ⟨2, fun n hn st hst => ?_⟩⟩
  obtain ⟨n, rfl⟩ : ∃ m, n = m + 1 := ⟨n - 1, by omega⟩
  obtain ⟨s1, e1, h1⟩ : Yields (parenOpen (rNext fl) st) () fun s => RPos fl s _ tail := Ron.expect hst rfl (by simp)
  have htok : s1.tok = .ident := by rw [show s1.tok = rtok (.word k) from h1.tok]; simp [rtok, hk.1, hk.2]
  refine ⟨s1.cur.line, s1.cur.col, s1, ?_⟩
  unfold deRonNamed
  rw [M.bind_ok e1]
  refine M.bind_err ?_
  show (if s1.tok = .ident then (rMember (rNext fl) _ [] _ >>= whileIs .ident _ n) else Pure.pure _ : PM _) s1 = _
  rw [if_pos htok]
  refine M.bind_err ?_
  show (eatCommaParen (rNext fl) >>= fun _ => (Pure.pure _ : PM _)) s1 = _
  refine M.bind_err ?_
  show (if s1.tok = .comma then rNext fl else if s1.tok = .parenClose then Pure.pure () else errToken _ : PM Unit) s1 = _
  rw [htok]
  simp only [reduceCtorEq, if_false]
  show Out.err _ _ = _
  simp [htok]

/-! ## C43 -/

theorem lastNamed (k : List Char) (ps : List RMember) (h : ∃ p ∈ ps, p.1 = k) :
    ∃ a p b, ps = a ++ p :: b ∧ p.1 = k ∧ ∀ q ∈ b, q.1 ≠ k := by
  induction ps with
  | nil => obtain ⟨p, hp, _⟩ := h; cases hp
  | cons q ps ih =>
    by_cases hl : ∃ p ∈ ps, p.1 = k
    · obtain ⟨a, p, b, rfl, h1, h2⟩ := ih hl
      exact ⟨q :: a, p, b, rfl, h1, h2⟩
    · refine ⟨[], q, ps, rfl, ?_, fun p hp e => hl ⟨p, hp, e⟩⟩
      obtain ⟨p, hp, e⟩ := h
      rcases List.mem_cons.1 hp with rfl | hp
      · exact e
      · exact absurd ⟨p, hp, e⟩ hl

theorem fieldsGet_exists {cd fs} {ps : List RMember} (hdn : DistinctNames fs) (hkn : KnownMembers fs ps)
    (hall : ∀ f ∈ fs, (∀ p ∈ ps, p.1 ≠ f.jsonName) → f.mayBeAbsent cd) : ∃ vs, FieldsGet cd fs ps vs := by
  have key : ∀ f ∈ fs, ∃ w, FieldGets cd ps f w := by
    intro f hf
    unfold FieldGets
    split
    · exact ⟨_, rfl⟩
    · by_cases hno : ∃ p ∈ ps, p.1 = f.jsonName
      · obtain ⟨a, p, b, h1, h2, h3⟩ := lastNamed _ _ hno
        exact ⟨p.2.2, .inl ⟨a, p, b, h1, h2, h3, rfl⟩⟩
      · have hno' : ∀ p ∈ ps, p.1 ≠ f.jsonName := fun p hp e => hno ⟨p, hp, e⟩
        exact ⟨f.absentValue, .inr ⟨hno', hall f hf hno', rfl⟩⟩
  have hlist : ∀ gs : List Field, (∀ f ∈ gs, f ∈ fs) → ∃ vs : List Val, vs.length = gs.length ∧
      ∀ (j : Nat) f w, gs[j]? = some f → vs[j]? = some w → FieldGets cd ps f w := by
    intro gs
    induction gs with
    | nil => intro _; exact ⟨[], rfl, by simp⟩
    | cons g gs ih =>
      intro hg
      obtain ⟨vs, h1, h2⟩ := ih fun f hf => hg f (List.mem_cons_of_mem _ hf)
      obtain ⟨w, hw⟩ := key g (hg g (List.mem_cons_self ..))
      refine ⟨w :: vs, by simp [h1], ?_⟩
      intro j f w' hj hw'
      cases j with
      | zero => simp at hj hw'; subst hj; subst hw'; exact hw
      | succ j => exact h2 j f w' (by simpa using hj) (by simpa using hw')
  obtain ⟨vs, h1, h2⟩ := hlist fs fun _ h => h
  exact ⟨vs, hdn, hkn, h1, h2⟩

/-- **C43**: if every field without a member may be absent, the struct is accepted; each field has the
value of the last member with its name, or without such a member its default. -/
theorem C43_ron_struct_fields (hkeys : LawfulKeys env) {i : Nat} {fs cd nul} (hd : env.defs[i]? = some (.struct fs cd nul)) (hdn : DistinctNames fs)
    (ps : List RMember) (hkn : KnownMembers fs ps)
    (hr : ∀ p ∈ ps, ∀ f ∈ fs, f.skip = false → f.jsonName = p.1 → RonMeans env fl f.ty p.2.1 p.2.2)
    (hall : ∀ f ∈ fs, (∀ p ∈ ps, p.1 ≠ f.jsonName) → f.mayBeAbsent cd) {tr txt}
    (hx : RText fl (.fields (ps.map fun p => (p.1, p.2.1)) tr) txt) :
    ∃ vs, Decodes (fun n => deserializeRon env fl n (.named i) txt) (.struct vs) ∧ vs.length = fs.length ∧
      ∀ (j : Nat) f w, fs[j]? = some f → vs[j]? = some w → FieldGets cd ps f w := by
  obtain ⟨vs, hg⟩ := fieldsGet_exists hdn hkn hall
  exact ⟨vs, ron_reads hkeys hx (.struct ps hd hg hr), hg.2.2.1, hg.2.2.2⟩

/-- **C43** in struct variants. -/
theorem C43_ron_variant_fields (hkeys : LawfulKeys env) {i : Nat} {vars w j var fs} (hd : env.defs[i]? = some (.enum vars))
    (hc : VariantCalled vars w j var) (hsh : var.shape = .named fs) (hdn : DistinctNames fs)
    (ps : List RMember) (hkn : KnownMembers fs ps)
    (hr : ∀ p ∈ ps, ∀ f ∈ fs, f.skip = false → f.jsonName = p.1 → RonMeans env fl f.ty p.2.1 p.2.2)
    (hall : ∀ f ∈ fs, (∀ p ∈ ps, p.1 ≠ f.jsonName) → f.mayBeAbsent false) {tr txt}
    (hx : RText fl (.ctor w (.fields (ps.map fun p => (p.1, p.2.1)) tr)) txt) :
    ∃ vs, Decodes (fun n => deserializeRon env fl n (.named i) txt) (.variant j vs) ∧ vs.length = fs.length ∧
      ∀ (j : Nat) f w, fs[j]? = some f → vs[j]? = some w → FieldGets false ps f w := by
  obtain ⟨vs, hg⟩ := fieldsGet_exists hdn hkn hall
  exact ⟨vs, ron_reads hkeys hx (.structVariant ps hd hc hsh hg hr), hg.2.2.1, hg.2.2.2⟩

/-- **C43**: of the fields that have no member and may not be absent, the first one (in the order of
declaration) is reported as `MissingKey`. -/
theorem C43_ron_missing_field (hkeys : LawfulKeys env) {i : Nat} {fs cd nul} (hd : env.defs[i]? = some (.struct fs cd nul)) (hdn : DistinctNames fs)
    (ps : List RMember) (hkn : KnownMembers fs ps)
    (hr : ∀ p ∈ ps, ∀ f ∈ fs, f.skip = false → f.jsonName = p.1 → RonMeans env fl f.ty p.2.1 p.2.2)
    {k : Nat} {f : Field} (hf : fs[k]? = some f) (hno : ∀ p ∈ ps, p.1 ≠ f.jsonName) (hab : ¬ f.mayBeAbsent cd)
    (hfirst : ∀ j g, j < k → fs[j]? = some g → (∀ p ∈ ps, p.1 ≠ g.jsonName) → g.mayBeAbsent cd) {tr txt}
    (hx : RText fl (.fields (ps.map fun p => (p.1, p.2.1)) tr) txt) :
    RejectsWith (fun n => deserializeRon env fl n (.named i) txt) (.missingKey f.name) := by
  refine Ron.struct_fails hd (Ron.full_start hx) ?_
  refine ((Ron.reads_members hkeys ps hr).and (Ron.Ev.big ps.length)).mono fun n ⟨h1, h2⟩ st hst => ?_
  exact Ron.missing_named hdn ps hkn h1 hf hno hab hfirst n h2 st ⟨_, _, rfl, by simp [Ron.IsFollow]⟩ hst

/-- **C43**: the same in struct variants. -/
theorem C43_ron_missing_field_in_variant (hkeys : LawfulKeys env) {i : Nat} {vars w j var fs} (hd : env.defs[i]? = some (.enum vars))
    (hc : VariantCalled vars w j var) (hsh : var.shape = .named fs) (hdn : DistinctNames fs)
    (ps : List RMember) (hkn : KnownMembers fs ps)
    (hr : ∀ p ∈ ps, ∀ f ∈ fs, f.skip = false → f.jsonName = p.1 → RonMeans env fl f.ty p.2.1 p.2.2)
    {k : Nat} {f : Field} (hf : fs[k]? = some f) (hno : ∀ p ∈ ps, p.1 ≠ f.jsonName) (hab : ¬ f.mayBeAbsent false)
    (hfirst : ∀ j g, j < k → fs[j]? = some g → (∀ p ∈ ps, p.1 ≠ g.jsonName) → g.mayBeAbsent false) {tr txt}
    (hx : RText fl (.ctor w (.fields (ps.map fun p => (p.1, p.2.1)) tr)) txt) :
    RejectsWith (fun n => deserializeRon env fl n (.named i) txt) (.missingKey f.name) := by
  have hst := Ron.full_start hx
  obtain ⟨ls, el⟩ : ∃ ls, (RTree.fields (ps.map fun p => (p.1, p.2.1)) tr).lexemes ++ [.eof] = .punct .parenOpen :: ls :=
    ⟨_, by rw [RTree.lexemes_fields]; rfl⟩
  rw [RTree.lexemes_ctor, List.cons_append, el] at hst
  refine Ron.variant_fails hd hc hsh rfl hst ?_
  refine ((Ron.reads_members hkeys ps hr).and (Ron.Ev.big ps.length)).mono fun n ⟨h1, h2⟩ st hst => ?_
  rw [← el] at hst
  exact Ron.missing_named hdn ps hkn h1 hf hno hab hfirst n h2 st ⟨_, _, rfl, by simp [Ron.IsFollow]⟩ hst

/-- **C43**: the order of members with distinct names does not matter. -/
theorem C43_ron_member_order (hkeys : LawfulKeys env) {i : Nat} {fs cd nul} (hd : env.defs[i]? = some (.struct fs cd nul)) (hdn : DistinctNames fs)
    (ps ps' : List RMember) (hperm : ps.Perm ps') (hdist : ps.Pairwise fun a b => a.1 ≠ b.1) (hkn : KnownMembers fs ps)
    (hr : ∀ p ∈ ps, ∀ f ∈ fs, f.skip = false → f.jsonName = p.1 → RonMeans env fl f.ty p.2.1 p.2.2)
    (hall : ∀ f ∈ fs, (∀ p ∈ ps, p.1 ≠ f.jsonName) → f.mayBeAbsent cd) {tr tr' txt txt'}
    (hx : RText fl (.fields (ps.map fun p => (p.1, p.2.1)) tr) txt)
    (hx' : RText fl (.fields (ps'.map fun p => (p.1, p.2.1)) tr') txt') :
    ∃ v, Decodes (fun n => deserializeRon env fl n (.named i) txt) v ∧
      Decodes (fun n => deserializeRon env fl n (.named i) txt') v := by
  obtain ⟨vs, hg⟩ := fieldsGet_exists hdn hkn hall
  refine ⟨.struct vs, ron_reads hkeys hx (.struct ps hd hg hr), ron_reads hkeys hx' (.struct ps' hd ⟨hdn, ?_, hg.2.2.1, ?_⟩ ?_)⟩
  · exact fun p hp => hkn p (hperm.mem_iff.2 hp)
  · intro j f w hf hw
    have h := hg.2.2.2 j f w hf hw
    unfold FieldGets at h ⊢
    split
    · rename_i hs; rwa [if_pos hs] at h
    · rename_i hs
      rw [if_neg hs] at h
      rcases h with ⟨a, p, b, rfl, h1, _, h2⟩ | ⟨h1, h2, h3⟩
      · have hm : p ∈ ps' := hperm.mem_iff.1 (by simp)
        obtain ⟨a', b', rfl⟩ := List.append_of_mem hm
        refine .inl ⟨a', p, b', rfl, h1, fun q hq => ?_, h2⟩
        have hd' := hperm.pairwise hdist fun h => h.symm
        rw [List.pairwise_append] at hd'
        have := List.rel_of_pairwise_cons hd'.2.1 hq
        rw [← h1]; exact this.symm
      · exact .inr ⟨fun q hq => h1 q (hperm.mem_iff.2 hq), h2, h3⟩
  · exact fun p hp => hr p (hperm.mem_iff.2 hp)

/-! ## Examples: `Conf` -/

/-- ` ( retries : 1 , retries : 2 , cache @`: `retries` is read twice, then the skipped field is unknown. -/
example : RejectsWith (fun n => deserializeRon exJEnv toyFloat n (.named 3) (chars " ( retries : 1 , retries : 2 , cache @"))
    (.unexpectedKey (chars "cache")) := by
  refine C42_ron_unknown_field exJEnv_lawful (i := 3) (cd := false) (nul := false) (fs := _) rfl (by simp) exConf_distinct (tail := chars " @") ?_ ?_
    [(chars "retries", .num (.nat 1), .int 1), (chars "retries", .num (.nat 2), .int 2)] ?_ ?_ ?_
  · exact ⟨by decide, by decide⟩
  · simp [Field.jsonName, chars]
  · intro p hp
    simp only [List.mem_cons, List.not_mem_nil, or_false] at hp
    rcases hp with rfl | rfl <;> exact ⟨⟨by decide, by decide⟩, by simp [Field.jsonName, chars]⟩
  · intro p hp f hf
    simp only [List.mem_cons, List.not_mem_nil, or_false] at hp hf
    rcases hp with rfl | rfl <;> rcases hf with rfl | rfl | rfl | rfl | rfl <;>
      simp [Field.jsonName, chars] <;> exact .int rfl rfl (by decide) (fun _ => ⟨_, rfl⟩)
  · have e : Lexeme.punct Tok.parenOpen :: (memberLexemes [(chars "retries", RTree.num (.nat 1), Val.int 1),
        (chars "retries", RTree.num (.nat 2), Val.int 2)] ++ [Lexeme.word (chars "cache")]) =
        [.punct .parenOpen, .word (chars "retries"), .punct .colon, .num (.nat 1), .punct .comma, .word (chars "retries"),
          .punct .colon, .num (.nat 2), .punct .comma, .word (chars "cache")] := by simp [memberLexemes, RTree.lexemes]
    rw [e]
    exact (rspaced_doc (.inr ⟨_, rfl⟩) (by decide)).1

/-- `(ratio: 2, n: "a", ratio: 3,)`: the last `ratio` counts, `retries` and `level` get their defaults. -/
def exPs : List RMember :=
  [(chars "ratio", .num (.nat 2), .f64 2), (chars "n", .str (chars "a"), .str (chars "a")), (chars "ratio", .num (.nat 3), .f64 3)]

theorem exPs_known : KnownMembers
  [ { name := chars "name", ty := .str, rename := some (chars "n"), tyDefault := .str [] },
    { name := chars "retries", ty := .int .u8, dfltAttr := some (.int 3), tyDefault := .int 0 },
    { name := chars "level", ty := .option (.named 2), optSyn := true, tyDefault := .none },
    { name := chars "cache", ty := .int .u64, skip := true, tyDefault := .int 0 },
    { name := chars "ratio", ty := .f64, tyDefault := .f64 0 } ] exPs := by
  intro p hp
  simp only [exPs, List.mem_cons, List.not_mem_nil, or_false] at hp
  rcases hp with rfl | rfl | rfl <;> exact ⟨⟨by decide, by decide⟩, by simp [Field.jsonName, chars]⟩

example : ∃ vs : List Val, Decodes (fun n => deserializeRon exJEnv toyFloat n (.named 3)
      (chars " ( ratio : 2 , n : \"a\" , ratio : 3 , )")) (.struct vs) ∧ vs.length = 5 ∧
      ∀ w, vs[1]? = some w → w = .int 3 := by
  have key := C43_ron_struct_fields (env := exJEnv) (fl := toyFloat) exJEnv_lawful (i := 3) (cd := false) (nul := false) (fs := _) (tr := true)
    (txt := chars " ( ratio : 2 , n : \"a\" , ratio : 3 , )") rfl exConf_distinct exPs exPs_known ?_ ?_ ?_
  · obtain ⟨vs, h1, h2, h3⟩ := key
    refine ⟨vs, h1, h2, fun w hw => ?_⟩
    have := h3 1 _ w rfl hw
    unfold FieldGets at this
    rw [if_neg (by simp)] at this
    rcases this with ⟨a, p, b, e, h4, _⟩ | ⟨_, _, h⟩
    · have : p ∈ exPs := by rw [e]; simp
      simp only [exPs, List.mem_cons, List.not_mem_nil, or_false] at this
      rcases this with rfl | rfl | rfl <;> simp [Field.jsonName, chars] at h4
    · exact h
  · intro p hp f hf
    simp only [exPs, List.mem_cons, List.not_mem_nil, or_false] at hp hf
    rcases hp with rfl | rfl | rfl <;> rcases hf with rfl | rfl | rfl | rfl | rfl <;>
      simp [Field.jsonName, chars] <;> first | exact .str | exact .f64 (t := .nat _)
  · simp [exPs, Field.jsonName, chars, Field.mayBeAbsent]
  · refine rtext_spaced [.punct .parenOpen, .word (chars "ratio"), .punct .colon, .num (.nat 2), .punct .comma, .word (chars "n"),
      .punct .colon, .str (chars "a"), .punct .comma, .word (chars "ratio"), .punct .colon, .num (.nat 3), .punct .comma,
      .punct .parenClose] ?_ (by decide)
    simp [RTree.lexemes, commaLexemes, exPs, chars]

/-- `( n : "a" )` lacks `ratio`. -/
example : RejectsWith (fun n => deserializeRon exJEnv toyFloat n (.named 3) (chars " ( n : \"a\" )"))
    (.missingKey (chars "ratio")) := by
  refine C43_ron_missing_field (env := exJEnv) (fl := toyFloat) exJEnv_lawful (i := 3) (cd := false) (nul := false) (fs := _) (tr := false) (k := 4)
    rfl exConf_distinct [(chars "n", .str (chars "a"), .str (chars "a"))] ?_ ?_ rfl ?_ ?_ ?_ ?_
  · intro p hp
    simp only [List.mem_cons, List.not_mem_nil, or_false] at hp
    subst hp; exact ⟨⟨by decide, by decide⟩, by simp [Field.jsonName, chars]⟩
  · intro p hp f hf
    simp only [List.mem_cons, List.not_mem_nil, or_false] at hp hf
    subst hp
    rcases hf with rfl | rfl | rfl | rfl | rfl <;>
      simp [Field.jsonName, chars]; exact .str
  · simp [Field.jsonName, chars]
  · simp [Field.mayBeAbsent]
  · intro j g hj hg
    match j with
    | 0 => simp at hg; subst hg; simp [Field.jsonName, chars]
    | 1 => simp at hg; subst hg; simp [Field.mayBeAbsent]
    | 2 => simp at hg; subst hg; simp [Field.mayBeAbsent]
    | 3 => simp at hg; subst hg; simp [Field.mayBeAbsent]
    | n + 4 => omega
  · refine rtext_spaced [.punct .parenOpen, .word (chars "n"), .punct .colon, .str (chars "a"), .punct .parenClose] ?_ (by decide)
    simp [RTree.lexemes, commaLexemes, chars]

end NS
