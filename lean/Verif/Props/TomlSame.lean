import Verif.Lemmas.TomlSame
import Verif.Props.TomlWhole
import Verif.Props.TomlGet
/-! # Property C104: rearranging and joining TOML documents -/
namespace NS
variable {o : TomlOps}

theorem tsays_fine {doc : List Stmt} {txt : List Char} (h : TSays o doc txt) :
    (¬ Clashes doc → ∃ m, TomlOk (fun n => parseToml o n txt) m ∧ Stands doc m) ∧
    (TomlPanics (fun n => parseToml o n txt) ↔ Clashes doc) ∧
    ¬ ∃ why line col, TomlFails (fun n => parseToml o n txt) why line col := by
  have h1 : ¬ Clashes doc → ∃ m, TomlOk (fun n => parseToml o n txt) m ∧ Stands doc m := fun hc => by
    obtain ⟨ts, h1, h2⟩ := h
    obtain ⟨u, _, hk⟩ := (run_doc h1.plain).2 hc
    exact ⟨_, C70_toml_parses_exactly.2 ⟨doc, ⟨ts, h1, h2⟩, hc, hk.stands⟩, hk.stands⟩
  have h2 : ¬ ∃ why line col, TomlFails (fun n => parseToml o n txt) why line col := fun hf => (C71_toml_fails_iff.1 hf).1 doc h
  refine ⟨h1, ⟨fun hp => ?_, fun hc => ?_⟩, h2⟩
  · rcases Classical.em (Clashes doc) with hc | hc
    · exact hc
    · obtain ⟨m, hm, _⟩ := h1 hc
      exact absurd hp (toml_ok_not_panic hm)
  · rcases C48_toml_stops (o := o) txt with ⟨m, hm⟩ | hf | hp
    · obtain ⟨doc', hs, hc', _⟩ := C70_toml_parses_exactly.1 hm
      cases C70_toml_one_reading h hs
      exact absurd hc hc'
    · exact absurd hf h2
    · exact hp

/-- **C104**: texts that leave the same in every key and every table get the same answer, whatever the order and
the grouping of their statements. -/
theorem C104_toml_same_document {doc doc' : List Stmt} {txt txt' : List Char} (h : TSays o doc txt) (h' : TSays o doc' txt')
    (hs : SameDoc doc doc') : SameAnswer o txt txt' := by
  have one : ∀ {doc doc' : List Stmt} {txt txt' : List Char}, TSays o doc txt → TSays o doc' txt' → SameDoc doc doc' → ∀ m,
      TomlOk (fun n => parseToml o n txt) m → TomlOk (fun n => parseToml o n txt') m := by
    intro doc doc' txt txt' h h' hs m hm
    obtain ⟨d, hd, hc, hst⟩ := C70_toml_parses_exactly.1 hm
    cases C70_toml_one_reading h hd
    exact C70_toml_parses_exactly.2 ⟨doc', h', fun hc' => hc (hs.clashes.2 hc'), hst.same hs⟩
  refine ⟨fun m => ⟨one h h' hs m, one h' h hs.symm m⟩, ?_, ?_⟩
  · rw [(tsays_fine h).2.1, (tsays_fine h').2.1, hs.clashes]
  · exact ⟨fun hf => absurd hf (tsays_fine h).2.2, fun hf => absurd hf (tsays_fine h').2.2⟩

/-- **C104**: two assignments in a row to different keys may be exchanged, anywhere in a document. -/
theorem C104_toml_swap_assignments {a b : List Stmt} {k k' : List Char} {v v' : Toml} {txt txt' : List Char}
    (h : TSays o (a ++ [.assign k v, .assign k' v'] ++ b) txt) (h' : TSays o (a ++ [.assign k' v', .assign k v] ++ b) txt')
    (hk : k ≠ k') : SameAnswer o txt txt' := by
  refine C104_toml_same_document h h' ?_
  rw [List.append_assoc, List.append_assoc]
  refine SameDoc.mid (by intro n hn; simp at hn) (by intro n hn; simp at hn) (fun s => ?_) a
  have hq : qualified s k ≠ qualified s k' := by
    unfold qualified
    split
    · exact hk
    · intro e
      have := List.append_cancel_left e
      injection this with _ e
      exact hk e
  refine same_swap (as := [(qualified s k, v)]) (bs := [(qualified s k', v')]) (fun q => ?_) (assigns s b)
  rw [lastAssigned_cons, lastAssigned_cons]
  by_cases e : qualified s k = q
  · right
    rw [if_neg (by rw [← e]; exact hq.symm)]
    rfl
  · left
    rw [if_neg e]
    rfl

/-- **C104**: two runs of sections that assign no key in common may be exchanged, if what follows begins with a
header. -/
theorem C104_toml_swap_sections {a x y b : List Stmt} {txt txt' : List Char} (h : TSays o (a ++ x ++ y ++ b) txt)
    (h' : TSays o (a ++ y ++ x ++ b) txt') (hx : NoTables x) (hy : NoTables y) (bx : BeginsWithHeader x) (by_ : BeginsWithHeader y)
    (bb : BeginsWithHeader b) (hd : ∀ k v v', (k, v) ∈ assigns [] x → (k, v') ∉ assigns [] y) : SameAnswer o txt txt' := by
  refine C104_toml_same_document h h' ?_
  rw [show a ++ x ++ y ++ b = a ++ ((x ++ y) ++ b) by simp, show a ++ y ++ x ++ b = a ++ ((y ++ x) ++ b) by simp]
  have nt : ∀ {x y : List Stmt}, NoTables x → NoTables y → NoTables (x ++ y) := fun hx hy n hn =>
    (List.mem_append.1 hn).elim (hx n) (hy n)
  have hb : ∀ {x b : List Stmt}, BeginsWithHeader x → BeginsWithHeader b → BeginsWithHeader (x ++ b) := by
    intro x b h1 h2
    cases x with
    | nil => exact h2
    | cons c x => exact fun k v => h1 k v
  refine SameDoc.mid (nt hx hy) (nt hy hx) (fun s => ?_) a
  rw [List.append_assoc, List.append_assoc, assigns_append hx (hb by_ bb) s [], assigns_append hy bb [] [],
    assigns_append hy (hb bx bb) s [], assigns_append hx bb [] [], assigns_header bx s [], assigns_header by_ s []]
  refine same_swap (fun k => ?_) _
  cases e : lastAssigned k (assigns [] x) with
  | none => exact .inl rfl
  | some v => exact .inr (lastAssigned_none.2 fun v' => hd k v v' (lastAssigned_mem e))

/-- **C104**: a section header does nothing but prefix the keys below it: `[s]` and `k = v` is `s.k = v` and `[s]`, before
any other header. -/
theorem C104_toml_section_is_prefix {a b : List Stmt} {s k : List Char} {v : Toml} {txt txt' : List Char} (hs : s ≠ [])
    (h : TSays o (a ++ [.sect s, .assign k v] ++ b) txt) (h' : TSays o (a ++ [.assign (s ++ '.' :: k) v, .sect s] ++ b) txt')
    (ha : ∀ n, Stmt.sect n ∉ a) : SameAnswer o txt txt' := by
  refine C104_toml_same_document h h' ?_
  have key : ∀ a : List Stmt, (∀ n, Stmt.sect n ∉ a) →
      assigns [] (a ++ [.sect s, .assign k v] ++ b) = assigns [] (a ++ [.assign (s ++ '.' :: k) v, .sect s] ++ b) ∧
      tables (a ++ [.sect s, .assign k v] ++ b) = tables (a ++ [.assign (s ++ '.' :: k) v, .sect s] ++ b) := by
    intro a ha
    induction a with
    | nil => exact ⟨by simp [assigns, qualified, hs], by simp [tables]⟩
    | cons x a ih =>
      obtain ⟨i1, i2⟩ := ih fun n hn => ha n (List.mem_cons_of_mem _ hn)
      cases x with
      | sect n => exact absurd List.mem_cons_self (ha n)
      | table n => exact ⟨rfl, by simp only [List.cons_append, tables]; rw [i2, i1]⟩
      | assign k v => exact ⟨by simp only [List.cons_append, assigns]; rw [i1], by simp only [List.cons_append, tables]; exact i2⟩
  obtain ⟨h1, h2⟩ := key a ha
  refine ⟨fun q => by rw [h1], fun n => ?_⟩
  rw [h2]
  exact matching_refl (fun _ _ => rfl) _

/-- **C104**: two `[[..]]` tables in a row with different names may be exchanged, with what is under them. -/
theorem C104_toml_swap_tables {a x y b : List Stmt} {n n' : List Char} {txt txt' : List Char}
    (h : TSays o (a ++ .table n :: x ++ .table n' :: y ++ b) txt) (h' : TSays o (a ++ .table n' :: y ++ .table n :: x ++ b) txt')
    (hx : NoTables x) (hy : NoTables y) (hn : n ≠ n') (hb : b = [] ∨ ∃ m c, b = .table m :: c) : SameAnswer o txt txt' := by
  refine C104_toml_same_document h h' ?_
  have hr : ∀ {x : List Stmt}, NoTables x → ∀ s, assigns s (x ++ b) = assigns s x := by
    intro x hx s
    rcases hb with rfl | ⟨m, c, rfl⟩
    · simp
    · exact (tables_append x c m).2 s
  have ht : ∀ (n n' : List Char) (x y : List Stmt), NoTables x → NoTables y →
      tables (a ++ .table n :: x ++ .table n' :: y ++ b) =
        tables a ++ ((n, assigns [] x) :: (n', assigns [] y) :: tables b) ∧
      ∀ s, assigns s (a ++ .table n :: x ++ .table n' :: y ++ b) = assigns s a := by
    intro n n' x y hx hy
    rw [show a ++ .table n :: x ++ .table n' :: y ++ b = a ++ .table n :: (x ++ .table n' :: (y ++ b)) by simp]
    refine ⟨?_, (tables_append a _ n).2⟩
    rw [(tables_append a _ n).1, tables, (tables_append x _ n').1, (tables_append x _ n').2, tables, tables_none hy, hr hy,
      show tables x = [] by simpa [tables] using tables_none hx []]
    rfl
  obtain ⟨h1, h2⟩ := ht n n' x y hx hy
  obtain ⟨h3, h4⟩ := ht n' n y x hy hx
  refine ⟨fun q => by rw [h2, h4], fun m => ?_⟩
  rw [h1, h3]
  have : ((n, assigns [] x) :: (n', assigns [] y) :: tables b).filter (fun t => t.1 == m) =
      ((n', assigns [] y) :: (n, assigns [] x) :: tables b).filter (fun t => t.1 == m) := by
    simp only [List.filter_cons]
    by_cases e : n = m
    · have e' : n' ≠ m := fun e' => hn (e.trans e'.symm)
      simp [e, e']
    · simp [e]
  rw [List.filter_append, List.filter_append, this]
  exact matching_refl (fun _ _ => rfl) _

theorem assigned_plain {doc : List Stmt} {txt : List Char} {k : List Char} {v : Toml} (h : TText o doc txt)
    (hk : (k, v) ∈ assigns [] doc) (us : List TMap) : v ≠ .array us := by
  obtain ⟨ts, hs, _⟩ := h
  have hp := hs.plain
  intro e
  subst e
  have : ∀ (doc : List Stmt) (s : List Char), (k, Toml.array us) ∈ assigns s doc → ∃ q, Stmt.assign q (.array us) ∈ doc := by
    intro doc
    induction doc with
    | nil => intro s h; cases h
    | cons x doc ih =>
      intro s h
      cases x with
      | table m => cases h
      | sect s' => obtain ⟨q, hq⟩ := ih _ h; exact ⟨q, List.mem_cons_of_mem _ hq⟩
      | assign q v =>
        rcases List.mem_cons.1 h with h | h
        · injection h with _ h; subst h; exact ⟨q, List.mem_cons_self⟩
        · obtain ⟨q, hq⟩ := ih _ h; exact ⟨q, List.mem_cons_of_mem _ hq⟩
  obtain ⟨q, hq⟩ := this doc [] hk
  have := hp q _ hq
  cases this

/-- **C104**: joining two documents (with a line break) gives a document with the statements of both. -/
theorem C104_toml_join {doc doc' : List Stmt} {txt txt' : List Char} (h : TText o doc txt) (h' : TText o doc' txt') :
    TText o (doc ++ doc') (txt ++ '\n' :: txt') := h.join h'

/-- **C104**: so a later file overrides an earlier one key by key: if the first has no `[[..]]` tables and the second
begins with a header, a key that is no table holds in the joined file what it holds in the second, and what it
holds in the first if it is not in the second. -/
theorem C104_toml_override {doc doc' : List Stmt} {txt txt' : List Char} {m m' m'' : TMap} (h : TText o doc txt) (h' : TText o doc' txt')
    (ht : NoTables doc) (hd : BeginsWithHeader doc') (hm : TomlOk (fun n => parseToml o n txt) m)
    (hm' : TomlOk (fun n => parseToml o n txt') m') (hm'' : TomlOk (fun n => parseToml o n (txt ++ '\n' :: txt')) m'')
    {k : List Char} (hk : k ∉ (tables doc').map Prod.fst) : tomlAt m'' k = (tomlAt m' k).or (tomlAt m k) := by
  have t0 : tables doc = [] := by simpa [tables] using tables_none ht []
  rw [C84_toml_lookup h hm (by simp [t0]), C84_toml_lookup h' hm' hk,
    C84_toml_lookup (h.join h') hm'' (by rw [tables_none ht]; exact hk), assigns_append ht hd [] [], lastAssigned_app]

/-- **C104**: the joined file is accepted exactly if no table of the second has the name of a key of the first. -/
theorem C104_toml_join_accepted {doc doc' : List Stmt} {txt txt' : List Char} {m m' : TMap} (h : TText o doc txt) (h' : TText o doc' txt')
    (ht : NoTables doc) (hd : BeginsWithHeader doc') (hm : TomlOk (fun n => parseToml o n txt) m)
    (hm' : TomlOk (fun n => parseToml o n txt') m') :
    (∃ m'', TomlOk (fun n => parseToml o n (txt ++ '\n' :: txt')) m'') ↔
      ∀ k ∈ (tables doc').map Prod.fst, tomlAt m k = none := by
  have t0 : tables doc = [] := by simpa [tables] using tables_none ht []
  have c' : ¬ Clashes doc' := fun hc => toml_ok_not_panic hm' ((C48_toml_documents h').1.2 hc)
  rw [(C48_toml_documents (h.join h')).2, clashes_iff, tables_none ht, assigns_append ht hd [] []]
  rw [clashes_iff] at c'
  constructor
  · intro hc k hk
    rw [C84_toml_lookup h hm (by simp [t0])]
    rcases Classical.em (lastAssigned k (assigns [] doc) = none) with e | e
    · exact e
    · refine absurd ⟨k, hk, ?_⟩ hc
      rw [lastAssigned_app]
      cases e' : lastAssigned k (assigns [] doc') with
      | none => simpa using e
      | some v => simp
  · rintro hk ⟨n, h1, h2⟩
    have h3 := hk n h1
    rw [C84_toml_lookup h hm (by simp [t0])] at h3
    rw [lastAssigned_app, h3] at h2
    exact c' ⟨n, h1, by simpa using h2⟩

/-- **C104**: a file that begins with a `[[..]]` header and is joined to one with other tables adds its tables after those
of the first: `j`-th lookups count on. -/
theorem C104_toml_join_tables {doc doc' : List Stmt} {n : List Char} {txt txt' : List Char} {m m' m'' : TMap} (h : TText o doc txt)
    (h' : TText o (.table n :: doc') txt') (hm : TomlOk (fun n => parseToml o n txt) m)
    (hm' : TomlOk (fun n => parseToml o n txt') m') (hm'' : TomlOk (fun n => parseToml o n (txt ++ '\n' :: txt')) m'')
    (k : List Char) :
    (∀ ts ts', tomlAt m k = some (.array ts) → tomlAt m' k = some (.array ts') → tomlAt m'' k = some (.array (ts ++ ts'))) ∧
    (tomlAt m' k = none → tomlAt m'' k = tomlAt m k) ∧ (tomlAt m k = none → tomlAt m'' k = tomlAt m' k) := by
  have c : ∀ {doc txt m}, TText o doc txt → TomlOk (fun n => parseToml o n txt) m → Stands doc m := fun h hm => by
    obtain ⟨m', h1, h2⟩ := (parse_doc h).2 fun hc => toml_ok_not_panic hm ((C48_toml_documents h).1.2 hc)
    cases toml_unique hm h1
    exact h2
  obtain ⟨e1, e2⟩ := tables_append doc doc' n
  have s := c h hm
  have s' := c h' hm'
  have s'' := c (h.join h') hm''
  have nn : ∀ {doc m}, Stands doc m → (tomlAt m k = none → k ∉ (tables doc).map Prod.fst) := fun s e hk => by
    obtain ⟨ts, h1, _⟩ := (s.2 k).2 hk
    rw [(tomlAt_iff s.1 k _).2 ((h1 _).2 rfl)] at e
    cases e
  have isArr : ∀ {doc txt m ts}, TText o doc txt → Stands doc m → tomlAt m k = some (.array ts) → k ∈ (tables doc).map Prod.fst := by
    intro doc txt m ts ht s e
    rcases Classical.em (k ∈ (tables doc).map Prod.fst) with hk | hk
    · exact hk
    · exact absurd rfl (assigned_plain ht (lastAssigned_mem (((s.2 k).1 hk _).1 ((tomlAt_iff s.1 k _).1 e))) ts)
  have e1' : (tables (doc ++ .table n :: doc')).filter (fun t => t.1 == k) =
      (tables doc).filter (fun t => t.1 == k) ++ (tables (.table n :: doc')).filter (fun t => t.1 == k) := by
    rw [e1, List.filter_append]
  have arr : ∀ {doc m ts}, Stands doc m → k ∈ (tables doc).map Prod.fst → tomlAt m k = some (.array ts) →
      Matching Holding ts (((tables doc).filter fun t => t.1 == k).map Prod.snd) := fun s hk e => by
    obtain ⟨ts, h1, h2⟩ := (s.2 k).2 hk
    have := (h1 _).1 ((tomlAt_iff s.1 k _).1 e)
    cases this
    exact h2
  have toArr : ∀ {doc m}, Stands doc m → k ∈ (tables doc).map Prod.fst → ∃ ts, tomlAt m k = some (.array ts) := fun s hk => by
    obtain ⟨ts, h1, _⟩ := (s.2 k).2 hk
    exact ⟨ts, (tomlAt_iff s.1 k _).2 ((h1 _).2 rfl)⟩
  have inj : k ∈ (tables doc).map Prod.fst ∨ k ∈ (tables (.table n :: doc')).map Prod.fst ↔
      k ∈ (tables (doc ++ .table n :: doc')).map Prod.fst := by rw [e1]; simp
  refine ⟨fun ts ts' h1 h2 => ?_, fun h1 => ?_, fun h1 => ?_⟩
  · have k1 := isArr h s h1
    have k2 := isArr h' s' h2
    obtain ⟨us, hu⟩ := toArr s'' (inj.1 (.inl k1))
    have a := arr s'' (inj.1 (.inl k1)) hu
    rw [e1', List.map_append] at a
    have b := matching_append (arr s k1 h1) (arr s' k2 h2)
    rw [hu, Matching.unique b a]
  · have k2 := nn s' h1
    have k2' : (tables (.table n :: doc')).filter (fun t => t.1 == k) = [] := by
      rw [tables_name] at k2; exact Classical.not_not.1 k2
    rcases Classical.em (k ∈ (tables doc).map Prod.fst) with hk | hk
    · obtain ⟨us, hu⟩ := toArr s'' (inj.1 (.inl hk))
      obtain ⟨ts, ht⟩ := toArr s hk
      have a := arr s'' (inj.1 (.inl hk)) hu
      rw [e1', k2', List.append_nil] at a
      rw [hu, ht, Matching.unique (arr s hk ht) a]
    · rw [C84_toml_lookup h hm hk, C84_toml_lookup (h.join h') hm'' (fun hk' => (inj.2 hk').elim hk k2), e2]
  · have k1 := nn s h1
    have k1' : (tables doc).filter (fun t => t.1 == k) = [] := by
      rw [tables_name] at k1; exact Classical.not_not.1 k1
    rcases Classical.em (k ∈ (tables (.table n :: doc')).map Prod.fst) with hk | hk
    · obtain ⟨us, hu⟩ := toArr s'' (inj.1 (.inr hk))
      obtain ⟨ts, ht⟩ := toArr s' hk
      have a := arr s'' (inj.1 (.inr hk)) hu
      rw [e1', k1', List.nil_append] at a
      rw [hu, ht, Matching.unique (arr s' hk ht) a]
    · rw [C84_toml_lookup (h.join h') hm'' (fun hk' => (inj.2 hk').elim k1 hk), e2, ← C84_toml_lookup h hm k1, h1,
        C84_toml_lookup h' hm' hk]
      rfl

/-! ## Examples -/

/-- `k=d` -/
theorem exTLine {k d : Char} (h1 : Bare k) (h2 : ¬ Digit k) (h3 : k ≠ '-') (h4 : Digit d) :
    TText toyToml [.assign [k] (.num (toyToml.ofU64 (d.toNat - 48)))] [k, '=', d] := by
  refine ⟨[.ident [k], .equals, .u64 (d.toNat - 48)], .cons (ts := [_, _, _]) (.assign .ident .nat) .nil, [], .inl .nil, ?_⟩
  refine .at [] [k] ['=', d] rfl .nil (ident1 h1 h2 h3 rfl) ?_
  refine .at [] ['='] [d] rfl .nil .equals ?_
  exact .at [] [d] [] rfl .nil (digit1 h4 rfl) .nil

/-- `[s]` -/
theorem exTSect {k : Char} (h1 : Bare k) (h2 : ¬ Digit k) (h3 : k ≠ '-') : TText toyToml [.sect [k]] ['[', k, ']'] := by
  refine ⟨[.blockOpen, .ident [k], .blockClose], .cons (ts := [_, _, _]) .sect .nil, [], .inl .nil, ?_⟩
  refine .at [] ['['] [k, ']'] rfl .nil .blockOpen ?_
  refine .at [] [k] [']'] rfl .nil (ident1 h1 h2 h3 rfl) ?_
  exact .at [] [']'] [] rfl .nil .blockClose .nil

/-- `[[t]]` -/
theorem exTTable {k : Char} (h1 : Bare k) (h2 : ¬ Digit k) (h3 : k ≠ '-') : TText toyToml [.table [k]] ['[', '[', k, ']', ']'] := by
  refine ⟨[.blockOpen, .blockOpen, .ident [k], .blockClose, .blockClose], .cons (ts := [_, _, _, _, _]) (.table .ident) .nil,
    [], .inl .nil, ?_⟩
  refine .at [] ['['] ['[', k, ']', ']'] rfl .nil .blockOpen ?_
  refine .at [] ['['] [k, ']', ']'] rfl .nil .blockOpen ?_
  refine .at [] [k] [']', ']'] rfl .nil (ident1 h1 h2 h3 rfl) ?_
  refine .at [] [']'] [']'] rfl .nil .blockClose ?_
  exact .at [] [']'] [] rfl .nil .blockClose .nil

theorem exTA : TText toyToml [.assign ['a'] (.num (toyToml.ofU64 1))] (chars "a=1") :=
  exTLine (k := 'a') (d := '1') (by decide) (by decide) (by decide) (by decide)
theorem exTB : TText toyToml [.assign ['b'] (.num (toyToml.ofU64 2))] (chars "b=2") :=
  exTLine (k := 'b') (d := '2') (by decide) (by decide) (by decide) (by decide)
theorem exTS : TText toyToml [.sect ['s']] (chars "[s]") := exTSect (k := 's') (by decide) (by decide) (by decide)
theorem exTU : TText toyToml [.sect ['u']] (chars "[u]") := exTSect (k := 'u') (by decide) (by decide) (by decide)
theorem exTT : TText toyToml [.table ['t']] (chars "[[t]]") := exTTable (k := 't') (by decide) (by decide) (by decide)
theorem exTV : TText toyToml [.table ['v']] (chars "[[v]]") := exTTable (k := 'v') (by decide) (by decide) (by decide)

/-- `s.a=1` -/
theorem exTDotted : TText toyToml [.assign (chars "s.a") (.num (toyToml.ofU64 1))] (chars "s.a=1") := by
  refine ⟨[.ident (chars "s.a"), .equals, .u64 1], .cons (ts := [_, _, _]) (.assign .ident .nat) .nil, [], .inl .nil, ?_⟩
  refine .at [] (chars "s.a") (chars "=1") (by decide) .nil
    (.ident (w := chars ".a") (by decide) (by decide) (by decide) (by decide) (by show ('s' :: ['.', 'a']) ∉ _; simp [tomlWords]) (by
      intro c hc; injection hc with hc; subst hc; decide)) ?_
  refine .at [] (chars "=") (chars "1") (by decide) .nil .equals ?_
  exact .at [] (chars "1") [] (by decide) .nil (digit1 (c := '1') (by decide) (by decide)) .nil

/-- C104: two lines exchanged. -/
example : SameAnswer toyToml (chars "a=1\nb=2") (chars "b=2\na=1") :=
  C104_toml_swap_assignments (a := []) (b := []) (C70_toml_documents_read (exTA.join exTB))
    (C70_toml_documents_read (exTB.join exTA)) (by decide)

/-- C104: two sections exchanged. -/
example : SameAnswer toyToml (chars "[s]\na=1\n[u]\nb=2") (chars "[u]\nb=2\n[s]\na=1") :=
  C104_toml_swap_sections (a := []) (b := []) (x := [.sect ['s'], .assign ['a'] (.num (toyToml.ofU64 1))])
    (y := [.sect ['u'], .assign ['b'] (.num (toyToml.ofU64 2))])
    (C70_toml_documents_read (exTS.join (exTA.join (exTU.join exTB)))) (C70_toml_documents_read (exTU.join (exTB.join (exTS.join exTA))))
    (by intro n h; simp at h) (by intro n h; simp at h) (by intro k v h; simp at h) (by intro k v h; simp at h)
    (by intro k v h; simp at h) (by
      intro k v v' h h'
      simp only [assigns, qualified, List.mem_cons, List.not_mem_nil, or_false, Prod.mk.injEq] at h h'
      have := h.1.symm.trans h'.1
      revert this
      decide)

/-- C104: a section as a dotted key. -/
example : SameAnswer toyToml (chars "[s]\na=1") (chars "s.a=1\n[s]") :=
  C104_toml_section_is_prefix (a := []) (b := []) (s := ['s']) (k := ['a']) (by decide) (C70_toml_documents_read (exTS.join exTA))
    (C70_toml_documents_read (exTDotted.join exTS)) (by simp)

/-- C104: two tables exchanged. -/
example : SameAnswer toyToml (chars "[[t]]\na=1\n[[v]]\nb=2") (chars "[[v]]\nb=2\n[[t]]\na=1") :=
  C104_toml_swap_tables (a := []) (b := []) (x := [.assign ['a'] (.num (toyToml.ofU64 1))])
    (y := [.assign ['b'] (.num (toyToml.ofU64 2))])
    (C70_toml_documents_read (exTT.join (exTA.join (exTV.join exTB)))) (C70_toml_documents_read (exTV.join (exTB.join (exTT.join exTA))))
    (by intro n h; simp at h) (by intro n h; simp at h) (by decide) (.inl rfl)

/-- C104: but the order of two assignments to the same key matters: `a=1⏎a=2` and `a=2⏎a=1`. -/
example : ¬ SameAnswer toyToml (chars "a=1\na=2") (chars "a=2\na=1") := by
  intro h
  have h1 := (exTLine (k := 'a') (d := '1') (by decide) (by decide) (by decide) (by decide)).join
    (exTLine (k := 'a') (d := '2') (by decide) (by decide) (by decide) (by decide))
  have h2 := (exTLine (k := 'a') (d := '2') (by decide) (by decide) (by decide) (by decide)).join
    (exTLine (k := 'a') (d := '1') (by decide) (by decide) (by decide) (by decide))
  obtain ⟨m, hm⟩ := (C48_toml_documents h1).2.2 (by rintro ⟨n, as, h, _⟩; simp [tables] at h)
  have l1 := C84_toml_lookup h1 hm (k := ['a']) (by simp [tables])
  have l2 := C84_toml_lookup h2 ((h.1 m).1 hm) (k := ['a']) (by simp [tables])
  rw [l1] at l2
  simp only [assigns, qualified, lastAssigned, List.cons_append, List.nil_append, List.reverse_cons, List.reverse_nil,
    List.find?_cons, if_true, beq_self_eq_true, Option.map_some, Option.some.injEq, Toml.num.injEq] at l2
  revert l2
  decide

/-- C104: `[s]⏎a=1` joined with `[s]⏎b=2`: both keys are there; with a table of another name: accepted. -/
example : ∃ m, TomlOk (fun n => parseToml toyToml n (chars "[s]\na=1\n[s]\nb=2\n[[t]]")) m ∧
    tomlAt m (chars "s.a") = some (.num (toyToml.ofU64 1)) ∧ tomlAt m (chars "s.b") = some (.num (toyToml.ofU64 2)) := by
  have h1 := exTS.join exTA
  have h2 := exTS.join (exTB.join exTT)
  obtain ⟨m, hm⟩ := (C48_toml_documents h1).2.2 (by rintro ⟨n, as, h, _⟩; simp [tables] at h)
  have nc : ¬ Clashes (([.sect ['s']] : List Stmt) ++ ([.assign ['b'] (.num (toyToml.ofU64 2))] ++ [.table ['t']])) := by
    rintro ⟨n, as, h, v, h'⟩
    simp only [List.cons_append, List.nil_append, tables, assigns, qualified, List.mem_cons, List.not_mem_nil, or_false, Prod.mk.injEq] at h h'
    have := h.1.symm.trans h'.1
    revert this
    decide
  obtain ⟨m', hm'⟩ := (C48_toml_documents h2).2.2 nc
  have nt : NoTables (([.sect ['s']] : List Stmt) ++ [.assign ['a'] (.num (toyToml.ofU64 1))]) := by intro n h; simp at h
  have hb : BeginsWithHeader (([.sect ['s']] : List Stmt) ++ ([.assign ['b'] (.num (toyToml.ofU64 2))] ++ [.table ['t']])) := by
    intro k v h; simp at h
  obtain ⟨m'', hm''⟩ := (C104_toml_join_accepted h1 h2 nt hb hm hm').2 (by
    intro k hk
    simp only [List.cons_append, List.nil_append, tables, List.map_cons, List.map_nil, List.mem_cons, List.not_mem_nil, or_false] at hk
    subst hk
    rw [C84_toml_lookup h1 hm (by simp [tables])]
    rfl)
  refine ⟨m'', hm'', ?_, ?_⟩
  · rw [C104_toml_override h1 h2 nt hb hm hm' hm'' (by simp [tables, chars]), C84_toml_lookup h1 hm (by simp [tables]),
      C84_toml_lookup h2 hm' (by simp [tables, chars])]
    rfl
  · rw [C104_toml_override h1 h2 nt hb hm hm' hm'' (by simp [tables, chars]), C84_toml_lookup h1 hm (by simp [tables]),
      C84_toml_lookup h2 hm' (by simp [tables, chars])]
    rfl

/-- C104: `[[t]]⏎a=1` joined with `[[t]]⏎b=2`: the array under `t` has both tables, in order. -/
example : ∃ m, TomlOk (fun n => parseToml toyToml n (chars "[[t]]\na=1\n[[t]]\nb=2")) m ∧
    tomlAt m (chars "t") = some (.array ([[(chars "a", .num (toyToml.ofU64 1))]] ++ [[(chars "b", .num (toyToml.ofU64 2))]])) := by
  have one : ∀ {txt k v}, TText toyToml [.table ['t'], .assign k v] txt →
      ∃ m, TomlOk (fun n => parseToml toyToml n txt) m ∧ tomlAt m (chars "t") = some (.array [[(k, v)]]) := by
    intro txt k v h
    obtain ⟨m, hm, hs⟩ := (parse_doc h).2 (by rintro ⟨n, as, _, v, h'⟩; simp [assigns] at h')
    obtain ⟨ts, h1, h2⟩ := (hs.2 (chars "t")).2 (by simp [tables, chars])
    refine ⟨m, hm, (tomlAt_iff hs.1 _ _).2 ((h1 _).2 ?_)⟩
    have h3 : Matching Holding ts [[(k, v)]] := by simpa [tables, chars, assigns, qualified] using h2
    have h4 : Matching Holding [[(k, v)]] [[(k, v)]] := .cons (holding_single k v) .nil
    rw [h3.unique h4]
  have h1 := exTT.join exTA
  have h2 := exTT.join exTB
  obtain ⟨m, hm, e⟩ := one h1
  obtain ⟨m', hm', e'⟩ := one h2
  obtain ⟨m'', hm''⟩ := (C48_toml_documents (h1.join h2)).2.2 (by rintro ⟨n, as, _, v, h'⟩; simp [assigns] at h')
  exact ⟨m'', hm'', (C104_toml_join_tables h1 h2 hm hm' hm'' (chars "t")).1 _ _ e e'⟩

end NS
