import Verif.Lemmas.Reorder
import Verif.Props.JsonMeans
import Verif.Props.RonObjects
import Verif.Lemmas.RonRender
import Verif.Lemmas.RonReorder
/-! # Property C105: the order of members and unknown members do not matter at any depth -/
namespace NS
variable {env : Env} {fl : FloatOps}

/-- **C105**: two texts whose JSON values differ, at any depth, only in the order of the members of structs, struct
variants, durations and `BTreeMap<String, _>` (without repeated keys), in the order of the elements of `BTreeSet`s, in members of structs that belong to no field (their values may be any), in trailing
commas, and in members `null` of `Option` fields (one object at a time; differences in several are several steps),
are read alike: as the same value, or not at all. -/
theorem C105_json_rearranged (hw : ProgWf env) (hp : Productive env) (hk : LawfulKeys env) (hd : DistinctProg env)
    {t : Ty} (ht : TyWf env t) {J J' : JTree} (h : JRearranged env NoSwap t J J') {txt txt' : List Char} (hx : JText fl J txt)
    (hx' : JText fl J' txt') (v : Val) :
    Decodes (fun n => deserializeJson env fl n t txt) v ↔ Decodes (fun n => deserializeJson env fl n t txt') v := by
  rw [C63_json_reads_meaning hw hp hk hd ht hx, C63_json_reads_meaning hw hp hk hd ht hx']
  exact ⟨h.means (fun _ _ _ => False.elim) hd v, h.symm.means (fun _ _ _ => False.elim) hd v⟩

/-- **C105** (RON): for RON texts that differ in the order of struct fields, of the elements
of `BTreeSet`s and the entries of `BTreeMap<String, _>`, in trailing commas and `None` fields — two such values
mean the same, and if they mean anything, every text of either is read as that. -/
theorem C105_ron_rearranged (hk : LawfulKeys env) {t : Ty} {x x' : RTree} (h : RRearranged env NoSwap t x x') (v : Val) :
    (RonMeans env fl t x v ↔ RonMeans env fl t x' v) ∧
    (RonMeans env fl t x v → ∀ txt txt', RText fl x txt → RText fl x' txt' →
      Decodes (fun n => deserializeRon env fl n t txt) v ∧ Decodes (fun n => deserializeRon env fl n t txt') v) :=
  ⟨⟨h.means (fun _ _ _ => False.elim) v, h.symm.means (fun _ _ _ => False.elim) v⟩, fun hm _ _ hx hx' =>
    ⟨ron_reads hk hx hm, ron_reads hk hx' (h.means (fun _ _ _ => False.elim) v hm)⟩⟩

/-- **C105** (parts): if moreover parts of the one text are replaced by others that are read alike at the type at which
they stand, the texts are still read alike: what a part means does not depend on where it stands. -/
theorem C105_json_swapped (hw : ProgWf env) (hp : Productive env) (hk : LawfulKeys env) (hd : DistinctProg env)
    {t : Ty} (ht : TyWf env t) {J J' : JTree} (h : JRearranged env (JReadAlike env fl) t J J') {txt txt' : List Char}
    (hx : JText fl J txt) (hx' : JText fl J' txt') (v : Val) :
    Decodes (fun n => deserializeJson env fl n t txt) v ↔ Decodes (fun n => deserializeJson env fl n t txt') v := by
  rw [C63_json_reads_meaning hw hp hk hd ht hx, C63_json_reads_meaning hw hp hk hd ht hx']
  exact ⟨h.means (fun _ _ _ h => h) hd v, h.symm.means (fun _ _ _ h => h.symm) hd v⟩

/-- **C105** (parts, RON). -/
theorem C105_ron_swapped (hk : LawfulKeys env) {t : Ty} {x x' : RTree} (h : RRearranged env (RReadAlike env fl) t x x') (v : Val) :
    (RonMeans env fl t x v ↔ RonMeans env fl t x' v) ∧
    (RonMeans env fl t x v → ∀ txt txt', RText fl x txt → RText fl x' txt' →
      Decodes (fun n => deserializeRon env fl n t txt) v ∧ Decodes (fun n => deserializeRon env fl n t txt') v) :=
  ⟨⟨h.means (fun _ _ _ h => h) v, h.symm.means (fun _ _ _ h => h.symm) v⟩, fun hm _ _ hx hx' =>
    ⟨ron_reads hk hx hm, ron_reads hk hx' (h.means (fun _ _ _ h => h) v hm)⟩⟩

/-- `{"secs":5}` and `{"nanos":0,"secs":5}` are the same duration. -/
theorem exDur_alike : JReadAlike exJEnv toyFloat .dur (.obj [(.str (chars "secs"), .num (.nat 5))] false)
    (.obj [(.str (chars "nanos"), .num (.nat 0)), (.str (chars "secs"), .num (.nat 5))] false) := by
  have a : ∀ {s n}, JDurMembers [(.str (chars "secs"), .num (.nat 5))] s n ↔ s = 5 ∧ n = 0 := by
    intro s n; simp [JDurMembers, chars]; omega
  have b : ∀ {s n}, JDurMembers [(.str (chars "nanos"), .num (.nat 0)), (.str (chars "secs"), .num (.nat 5))] s n ↔ s = 5 ∧ n = 0 := by
    intro s n; simp [JDurMembers, chars]; omega
  refine ⟨by simp, fun v => ⟨fun h => ?_, fun h => ?_⟩⟩
  · cases h with
    | dur h1 h2 h3 => exact .dur (b.2 (a.1 h1)) h2 h3
  · cases h with
    | dur h1 h2 h3 => exact .dur (a.2 (b.1 h1)) h2 h3

/-- C105: so are they inside a vector of options. -/
example (txt txt' : List Char) (v : Val)
    (hx : JText toyFloat (.arr [.null, .obj [(.str (chars "secs"), .num (.nat 5))] false] false) txt)
    (hx' : JText toyFloat (.arr [.null, .obj [(.str (chars "nanos"), .num (.nat 0)), (.str (chars "secs"), .num (.nat 5))] false] false) txt') :
    Decodes (fun n => deserializeJson exJEnv toyFloat n (.vec (.option .dur)) txt) v ↔
    Decodes (fun n => deserializeJson exJEnv toyFloat n (.vec (.option .dur)) txt') v := by
  refine C105_json_swapped exJEnv_wf exJEnv_productive exJEnv_lawful exJEnv_distinct (by simp [TyWf])
    (.seq (c := .vec (.option .dur)) (t := .option .dur)
      [(.null, .null), (.obj [(.str (chars "secs"), .num (.nat 5))] false,
        .obj [(.str (chars "nanos"), .num (.nat 0)), (.str (chars "secs"), .num (.nat 5))] false)]
      (.inl rfl) fun p hp => ?_) hx hx' v
  simp only [List.mem_cons, List.not_mem_nil, or_false] at hp
  rcases hp with rfl | rfl
  · exact .refl
  · exact .option (.swap exDur_alike)

/-- `{"id":1,"next":{"id":2,"zz":[true]}}`. -/
def exRA : JTree := .obj [(.str (chars "id"), .num (.nat 1)),
  (.str (chars "next"), .obj [(.str (chars "id"), .num (.nat 2)), (.str (chars "zz"), .arr [.bool true] false)] false)] false

/-- `{"note":"z","next":{"id":2},"id":1,}`. -/
def exRB : JTree := .obj [(.str (chars "note"), .str (chars "z")), (.str (chars "next"), .obj [(.str (chars "id"), .num (.nat 2))] false),
  (.str (chars "id"), .num (.nat 1))] true

theorem exRA_text : JText toyFloat exRA (chars " { \"id\" : 1 , \"next\" : { \"id\" : 2 , \"zz\" : [ true ] } }") := by
  refine jtext_spaced [.punct .curlyOpen, .str (chars "id"), .punct .colon, .num (.nat 1), .punct .comma, .str (chars "next"),
    .punct .colon, .punct .curlyOpen, .str (chars "id"), .punct .colon, .num (.nat 2), .punct .comma, .str (chars "zz"), .punct .colon,
    .punct .blockOpen, .word (chars "true"), .punct .blockClose, .punct .curlyClose, .punct .curlyClose] ?_ (by decide)
  simp [JTree.lexemes, commaLexemes, exRA, chars]

theorem exRB_text : JText toyFloat exRB (chars " { \"note\" : \"z\" , \"next\" : { \"id\" : 2 } , \"id\" : 1 , }") := by
  refine jtext_spaced [.punct .curlyOpen, .str (chars "note"), .punct .colon, .str (chars "z"), .punct .comma, .str (chars "next"),
    .punct .colon, .punct .curlyOpen, .str (chars "id"), .punct .colon, .num (.nat 2), .punct .curlyClose, .punct .comma, .str (chars "id"),
    .punct .colon, .num (.nat 1), .punct .comma, .punct .curlyClose] ?_ (by decide)
  simp [JTree.lexemes, commaLexemes, exRB, chars]

/-- The fields of `Node`. -/
def exNodeFields : List Field :=
  [ { name := chars "id", ty := .int .u16, tyDefault := .int 0 },
    { name := chars "note", ty := .str, skip := true, tyDefault := .str [] },
    { name := chars "next", ty := .option (.box (.named 0)), optSyn := true, tyDefault := .none } ]

theorem exNode_nobody {us : List (List Char × JTree)} (h : ∀ u ∈ us, u.1 = chars "zz" ∨ u.1 = chars "note") :
    NobodyReads exNodeFields us := by
  intro u hu f hf hs
  simp only [exNodeFields, List.mem_cons, List.not_mem_nil, or_false] at hf
  rcases hf with rfl | rfl | rfl
  · rcases h u hu with e | e <;> rw [e] <;> decide
  · simp at hs
  · rcases h u hu with e | e <;> rw [e] <;> decide

theorem exR_same : JRearranged exJEnv NoSwap (.named 0) exRA exRB := by
  have hdef : exJEnv.defs[0]? = some exNode := rfl
  have inner : JRearranged exJEnv NoSwap (.named 0) (.obj [(.str (chars "id"), .num (.nat 2)), (.str (chars "zz"), .arr [.bool true] false)] false)
      (.obj [(.str (chars "id"), .num (.nat 2))] false) := by
    refine JRearranged.struct (i := 0) [(chars "id", .num (.nat 2)), (chars "zz", .arr [.bool true] false)] [(chars "id", .num (.nat 2))]
      [(chars "id", .num (.nat 2), .num (.nat 2))] [(chars "zz", .arr [.bool true] false)] []
      hdef (by simp) (by decide) (.refl _) (.refl _) (exNode_nobody (by simp)) (exNode_nobody (by simp)) fun p hp f _ _ _ => ?_
    simp only [List.mem_cons, List.not_mem_nil, or_false] at hp
    subst hp
    exact .refl
  refine JRearranged.struct (i := 0) [(chars "id", .num (.nat 1)),
      (chars "next", .obj [(.str (chars "id"), .num (.nat 2)), (.str (chars "zz"), .arr [.bool true] false)] false)]
    [(chars "note", .str (chars "z")), (chars "next", .obj [(.str (chars "id"), .num (.nat 2))] false), (chars "id", .num (.nat 1))]
    [(chars "id", .num (.nat 1), .num (.nat 1)),
     (chars "next", .obj [(.str (chars "id"), .num (.nat 2)), (.str (chars "zz"), .arr [.bool true] false)] false,
       .obj [(.str (chars "id"), .num (.nat 2))] false)]
    [] [(chars "note", .str (chars "z"))] hdef (by simp) (by decide) (.refl _) (List.reverse_perm _).symm
    (exNode_nobody (by simp)) (exNode_nobody (by simp)) ?_
  intro p hp f hf hs hn
  simp only [List.mem_cons, List.not_mem_nil, or_false] at hp
  rcases hp with rfl | rfl
  · exact .refl
  · have : f.readTy = .option (.box (.named 0)) := by
      simp only [List.mem_cons, List.not_mem_nil, or_false] at hf
      rcases hf with rfl | rfl | rfl
      · revert hn; decide
      · simp at hs
      · rfl
    rw [this]
    exact .option (.box inner)

/-- C105: an outer swap, an inner unknown member, a member for a skipped field and a trailing comma change nothing. -/
example (v : Val) :
    Decodes (fun n => deserializeJson exJEnv toyFloat n (.named 0) (chars " { \"id\" : 1 , \"next\" : { \"id\" : 2 , \"zz\" : [ true ] } }")) v ↔
    Decodes (fun n => deserializeJson exJEnv toyFloat n (.named 0) (chars " { \"note\" : \"z\" , \"next\" : { \"id\" : 2 } , \"id\" : 1 , }")) v :=
  C105_json_rearranged exJEnv_wf exJEnv_productive exJEnv_lawful exJEnv_distinct (by simp [TyWf]) exR_same exRA_text exRB_text v

/-- C105: `"next":null` deep inside may as well be left out. -/
example (txt txt' : List Char) (v : Val)
    (hx : JText toyFloat (.arr [.obj [(.str (chars "id"), .num (.nat 2)), (.str (chars "next"), .null)] false] false) txt)
    (hx' : JText toyFloat (.arr [.obj [(.str (chars "id"), .num (.nat 2))] true] true) txt') :
    Decodes (fun n => deserializeJson exJEnv toyFloat n (.vec (.named 0)) txt) v ↔
    Decodes (fun n => deserializeJson exJEnv toyFloat n (.vec (.named 0)) txt') v := by
  have hdef : exJEnv.defs[0]? = some exNode := rfl
  refine C105_json_rearranged exJEnv_wf exJEnv_productive exJEnv_lawful exJEnv_distinct (by simp [TyWf])
    (.seq (c := .vec (.named 0)) (t := .named 0)
      [(.obj [(.str (chars "id"), .num (.nat 2)), (.str (chars "next"), .null)] false, .obj [(.str (chars "id"), .num (.nat 2))] true)]
      (.inl rfl) fun p hp => ?_) hx hx' v
  simp only [List.mem_cons, List.not_mem_nil, or_false] at hp
  subst hp
  refine JRearranged.dropNull (i := 0) (f := { name := chars "next", ty := .option (.box (.named 0)), optSyn := true, tyDefault := .none })
    [(chars "id", .num (.nat 2))] [] hdef (by simp) ⟨rfl, rfl, ⟨_, rfl⟩, .inr (.inl rfl), rfl⟩ ?_
  intro m hm
  simp only [List.append_nil, List.mem_cons, List.not_mem_nil, or_false] at hm
  subst hm
  show chars "id" ≠ chars "next"
  decide

example : JText toyFloat (.arr [.obj [(.str (chars "id"), .num (.nat 2)), (.str (chars "next"), .null)] false] false)
    (chars " [ { \"id\" : 2 , \"next\" : null } ]") := by
  refine jtext_spaced [.punct .blockOpen, .punct .curlyOpen, .str (chars "id"), .punct .colon, .num (.nat 2), .punct .comma,
    .str (chars "next"), .punct .colon, .word (chars "null"), .punct .curlyClose, .punct .blockClose] ?_ (by decide)
  simp [JTree.lexemes, commaLexemes, chars]

/-- `(id: 1, next: (next: None, id: 2))`. -/
def exRonA : RTree := .fields [(chars "id", .num (.nat 1)),
  (chars "next", .fields [(chars "next", .word (chars "None")), (chars "id", .num (.nat 2))] false)] false

/-- `(next: (id: 2, next: None,), id: 1)`. -/
def exRonB : RTree := .fields [(chars "next", .fields [(chars "id", .num (.nat 2)), (chars "next", .word (chars "None"))] true),
  (chars "id", .num (.nat 1))] false

theorem exRonB_text : RText toyFloat exRonB (chars " ( next : ( id : 2 , next : None , ) , id : 1 )") := by
  refine rtext_spaced [.punct .parenOpen, .word (chars "next"), .punct .colon, .punct .parenOpen, .word (chars "id"), .punct .colon,
    .num (.nat 2), .punct .comma, .word (chars "next"), .punct .colon, .word (chars "None"), .punct .comma, .punct .parenClose,
    .punct .comma, .word (chars "id"), .punct .colon, .num (.nat 1), .punct .parenClose] ?_ (by decide)
  simp [RTree.lexemes, commaLexemes, exRonB, chars]

theorem exRon_same : RRearranged exJEnv NoSwap (.named 0) exRonA exRonB := by
  have hdef : exJEnv.defs[0]? = some exNode := rfl
  have inner : RRearranged exJEnv NoSwap (.named 0) (.fields [(chars "next", .word (chars "None")), (chars "id", .num (.nat 2))] false)
      (.fields [(chars "id", .num (.nat 2)), (chars "next", .word (chars "None"))] true) := by
    refine RRearranged.struct (i := 0) _ _ [(chars "next", .word (chars "None"), .word (chars "None")), (chars "id", .num (.nat 2), .num (.nat 2))]
      hdef (by decide) (.refl _) (List.reverse_perm _).symm fun p hp f _ _ _ => ?_
    simp only [List.mem_cons, List.not_mem_nil, or_false] at hp
    rcases hp with rfl | rfl <;> exact .refl
  refine RRearranged.struct (i := 0) _ _
    [(chars "id", .num (.nat 1), .num (.nat 1)),
     (chars "next", .fields [(chars "next", .word (chars "None")), (chars "id", .num (.nat 2))] false,
       .fields [(chars "id", .num (.nat 2)), (chars "next", .word (chars "None"))] true)] hdef (by decide) (.refl _)
    (List.reverse_perm _).symm ?_
  intro p hp f hf hs hn
  simp only [List.mem_cons, List.not_mem_nil, or_false] at hp
  rcases hp with rfl | rfl
  · exact .refl
  · have : f.ty = .option (.box (.named 0)) := by
      simp only [List.mem_cons, List.not_mem_nil, or_false] at hf
      rcases hf with rfl | rfl | rfl
      · revert hn; decide
      · simp at hs
      · rfl
    rw [this]
    exact .option (.box inner)

theorem exNode_reads {cd : Bool} {ps : List RMember} (hk : KnownMembers exNodeFields ps) (h : ∃ p ∈ ps, p.1 = chars "id") :
    ∃ vs, FieldsGet cd exNodeFields ps vs := by
  refine fieldsGet_exists (by simp [DistinctNames, exNodeFields]; decide) hk fun f hf hno => ?_
  obtain ⟨p, hp, hn⟩ := h
  simp only [exNodeFields, List.mem_cons, List.not_mem_nil, or_false] at hf
  rcases hf with rfl | rfl | rfl
  · exact absurd hn (hno p hp)
  · simp [Field.mayBeAbsent]
  · simp [Field.mayBeAbsent]

theorem exNode_known {ps : List RMember} (h : ∀ p ∈ ps, p.1 = chars "id" ∨ p.1 = chars "next") : KnownMembers exNodeFields ps := by
  intro p hp
  rcases h p hp with e | e
  · exact ⟨by rw [e]; exact ⟨by decide, by decide⟩, { name := chars "id", ty := .int .u16, tyDefault := .int 0 }, by simp [exNodeFields], rfl, by rw [e]; rfl⟩
  · exact ⟨by rw [e]; exact ⟨by decide, by decide⟩,
      { name := chars "next", ty := .option (.box (.named 0)), optSyn := true, tyDefault := .none }, by simp [exNodeFields], rfl, by rw [e]; rfl⟩

theorem exNode_tys {f : Field} (hf : f ∈ exNodeFields) (hs : f.skip = false) :
    (f.jsonName = chars "id" ∧ f.ty = .int .u16) ∨ (f.jsonName = chars "next" ∧ f.ty = .option (.box (.named 0))) := by
  simp only [exNodeFields, List.mem_cons, List.not_mem_nil, or_false] at hf
  rcases hf with rfl | rfl | rfl
  · exact .inl ⟨rfl, rfl⟩
  · simp at hs
  · exact .inr ⟨rfl, rfl⟩

theorem exRonA_means : ∃ v, RonMeans exJEnv toyFloat (.named 0) exRonA v := by
  have hdef : exJEnv.defs[0]? = some (.struct exNodeFields false false) := rfl
  have hne : chars "id" ≠ chars "next" := by decide
  have inner : ∃ v, RonMeans exJEnv toyFloat (.named 0) (.fields [(chars "next", .word (chars "None")), (chars "id", .num (.nat 2))] false) v := by
    obtain ⟨vs, h⟩ := exNode_reads (cd := false) (ps := [(chars "next", .word (chars "None"), .none), (chars "id", .num (.nat 2), .int 2)])
      (exNode_known (by simp)) ⟨(chars "id", .num (.nat 2), .int 2), by simp, rfl⟩
    refine ⟨_, RonMeans.struct (tr := false) _ hdef h fun p hp f hf hs hn => ?_⟩
    simp only [List.mem_cons, List.not_mem_nil, or_false] at hp
    rcases exNode_tys hf hs with ⟨e, ht⟩ | ⟨e, ht⟩ <;> rcases hp with rfl | rfl
    · exact absurd (e.symm.trans hn) hne
    · rw [ht]; exact .int rfl rfl (by decide) fun _ => ⟨2, rfl⟩
    · rw [ht]; exact .none
    · exact absurd (hn.symm.trans e) hne
  obtain ⟨w, hw⟩ := inner
  obtain ⟨vs, h⟩ := exNode_reads (cd := false) (ps := [(chars "id", .num (.nat 1), .int 1),
      (chars "next", .fields [(chars "next", .word (chars "None")), (chars "id", .num (.nat 2))] false, .some (.box w))])
    (exNode_known (by simp)) ⟨(chars "id", .num (.nat 1), .int 1), by simp, rfl⟩
  refine ⟨_, RonMeans.struct (tr := false) _ hdef h fun p hp f hf hs hn => ?_⟩
  simp only [List.mem_cons, List.not_mem_nil, or_false] at hp
  rcases exNode_tys hf hs with ⟨e, ht⟩ | ⟨e, ht⟩ <;> rcases hp with rfl | rfl
  · rw [ht]; exact .int rfl rfl (by decide) fun _ => ⟨1, rfl⟩
  · exact absurd (e.symm.trans hn) hne
  · exact absurd (hn.symm.trans e) hne
  · rw [ht]; exact .some True.intro (.box hw)

/-- C105: the RON value `(id: 1, next: (next: None, id: 2))` is a value of `Node`, and the text
` ( next : ( id : 2 , next : None , ) , id : 1 )` is read as that value. -/
example : ∃ v, RonMeans exJEnv toyFloat (.named 0) exRonA v ∧
    Decodes (fun n => deserializeRon exJEnv toyFloat n (.named 0) (chars " ( next : ( id : 2 , next : None , ) , id : 1 )")) v := by
  obtain ⟨v, h⟩ := exRonA_means
  exact ⟨v, h, ron_reads exJEnv_lawful exRonB_text (((C105_ron_rearranged exJEnv_lawful exRon_same v).1).1 h)⟩

/-- C105: and so is the same with `next: None` left out. -/
example (txt : List Char) (v : Val) (hx : RText toyFloat (.list [.fields [(chars "id", .num (.nat 2))] true] false) txt)
    (h : RonMeans exJEnv toyFloat (.vec (.named 0))
      (.list [.fields [(chars "next", .word (chars "None")), (chars "id", .num (.nat 2))] false] true) v) :
    Decodes (fun n => deserializeRon exJEnv toyFloat n (.vec (.named 0)) txt) v := by
  have hdef : exJEnv.defs[0]? = some exNode := rfl
  refine ron_reads exJEnv_lawful hx (((C105_ron_rearranged exJEnv_lawful (.seq (c := .vec (.named 0)) (t := .named 0)
      [(.fields [(chars "next", .word (chars "None")), (chars "id", .num (.nat 2))] false, .fields [(chars "id", .num (.nat 2))] true)]
      (.inl rfl) fun p hp => ?_) v).1).1 h)
  simp only [List.mem_cons, List.not_mem_nil, or_false] at hp
  subst hp
  refine RRearranged.dropNone (i := 0) (f := { name := chars "next", ty := .option (.box (.named 0)), optSyn := true, tyDefault := .none })
    [] [(chars "id", .num (.nat 2))] hdef (by simp) ⟨rfl, ⟨_, rfl⟩, .inr (.inl rfl), rfl, ⟨by decide, by decide⟩⟩ ?_
  intro m hm
  simp only [List.nil_append, List.mem_cons, List.not_mem_nil, or_false] at hm
  subst hm
  show chars "id" ≠ chars "next"
  decide

/-- In RON, `1` and `true` are the same boolean. -/
theorem exBool_alike : RReadAlike exJEnv toyFloat .bool (.num (.nat 1)) (.word (chars "true")) := by
  refine ⟨⟨fun _ => ?_, fun _ => True.intro⟩, ⟨fun h => (by cases h), fun h => (by revert h; simp [chars])⟩, fun v => ⟨fun h => ?_, fun h => ?_⟩⟩
  · show chars "true" ≠ _
    decide
  · cases h with
    | boolNum => exact .true
  · generalize hx : RTree.word (chars "true") = x at h
    cases h with
    | true => exact RonMeans.boolNum (n := 1)
    | false => exact absurd hx (by simp [chars])
    | boolNum => cases hx

/-- C105: so they are inside a list. -/
example (v : Val) (h : RonMeans exJEnv toyFloat (.vec .bool) (.list [.num (.nat 1), .word (chars "false")] false) v) :
    Decodes (fun n => deserializeRon exJEnv toyFloat n (.vec .bool) (chars " [ true , false ]")) v := by
  refine ron_reads exJEnv_lawful (x := .list [.word (chars "true"), .word (chars "false")] false) ?_
    (((C105_ron_swapped exJEnv_lawful (.seq (c := .vec .bool) (t := .bool)
      [(.num (.nat 1), .word (chars "true")), (.word (chars "false"), .word (chars "false"))] (.inl rfl) fun p hp => ?_) v).1).1 h)
  · refine rtext_spaced [.punct .blockOpen, .word (chars "true"), .punct .comma, .word (chars "false"), .punct .blockClose] ?_ (by decide)
    simp [RTree.lexemes, commaLexemes, chars]
  · simp only [List.mem_cons, List.not_mem_nil, or_false] at hp
    rcases hp with rfl | rfl
    · exact .swap exBool_alike
    · exact .refl

end NS
