import Verif.Lemmas.HashReorder
import Verif.Lemmas.RonHashReorder
import Verif.Props.JsonMeans
import Verif.Props.Reorder
/-! # Property C105 for hash containers: what is read depends on the order of the text only in the order of iteration -/
namespace NS
variable {env : Env} {fl : FloatOps}

/-- **C105** (hash containers): if two texts differ, at any depth, only in the order of the elements of `HashSet`s
and of the entries of `HashMap<String, _>`s and `BTreeMap<String, _>`s (without repeated keys) and in trailing commas, and one is read as `v`,
then the other is read as `v` with hash containers visited in another order.  (Together with
`C105_json_rearranged`, one step after the other, in any order of all other members as well.) -/
theorem C105_json_rehashed (hw : ProgWf env) (hp : Productive env) (hk : LawfulKeys env) (hd : DistinctProg env)
    {t : Ty} (ht : TyWf env t) {J J' : JTree} (h : JRehashed env t J J') {txt txt' : List Char} (hx : JText fl J txt)
    (hx' : JText fl J' txt') {v : Val} (hv : Decodes (fun n => deserializeJson env fl n t txt) v) :
    ∃ w, Reordered env t v w ∧ Decodes (fun n => deserializeJson env fl n t txt') w := by
  rw [C63_json_reads_meaning hw hp hk hd ht hx] at hv
  obtain ⟨w, h1, h2⟩ := h.means hk hd v hv
  exact ⟨w, h2, (C63_json_reads_meaning hw hp hk hd ht hx' w).2 h1⟩

/-- **C105** (hash containers, RON): the same for RON — if the one RON value means `v`, the other means `v` with hash
containers visited in another order, and every text of either is read as what it means. -/
theorem C105_ron_rehashed (hk : LawfulKeys env) {t : Ty} {x x' : RTree} (h : RRehashed env t x x') {v : Val}
    (hv : RonMeans env fl t x v) :
    ∃ w, Reordered env t v w ∧ RonMeans env fl t x' w ∧ ∀ txt txt', RText fl x txt → RText fl x' txt' →
      Decodes (fun n => deserializeRon env fl n t txt) v ∧ Decodes (fun n => deserializeRon env fl n t txt') w := by
  obtain ⟨w, h1, h2⟩ := h.means hk v hv
  exact ⟨w, h2, h1, fun _ _ hx hx' => ⟨ron_reads hk hx hv, ron_reads hk hx' h1⟩⟩

/-- `{"id":1}`. -/
def exHId (n : Nat) : JTree := .obj [(.str (chars "id"), .num (.nat n))] false

/-- `[{"a":{"id":1},"b":{"id":2}}]`. -/
def exHA : JTree := .arr [.obj [(.str (chars "a"), exHId 1), (.str (chars "b"), exHId 2)] false] false

/-- `[{"b":{"id":2},"a":{"id":1}},]`. -/
def exHB : JTree := .arr [.obj [(.str (chars "b"), exHId 2), (.str (chars "a"), exHId 1)] false] true

theorem exHA_text : JText toyFloat exHA (chars " [ { \"a\" : { \"id\" : 1 } , \"b\" : { \"id\" : 2 } } ]") := by
  refine jtext_spaced [.punct .blockOpen, .punct .curlyOpen, .str (chars "a"), .punct .colon, .punct .curlyOpen, .str (chars "id"),
    .punct .colon, .num (.nat 1), .punct .curlyClose, .punct .comma, .str (chars "b"), .punct .colon, .punct .curlyOpen,
    .str (chars "id"), .punct .colon, .num (.nat 2), .punct .curlyClose, .punct .curlyClose, .punct .blockClose] ?_ (by decide)
  simp [JTree.lexemes, commaLexemes, exHA, exHId, chars]

theorem exHB_text : JText toyFloat exHB (chars " [ { \"b\" : { \"id\" : 2 } , \"a\" : { \"id\" : 1 } } , ]") := by
  refine jtext_spaced [.punct .blockOpen, .punct .curlyOpen, .str (chars "b"), .punct .colon, .punct .curlyOpen, .str (chars "id"),
    .punct .colon, .num (.nat 2), .punct .curlyClose, .punct .comma, .str (chars "a"), .punct .colon, .punct .curlyOpen,
    .str (chars "id"), .punct .colon, .num (.nat 1), .punct .curlyClose, .punct .curlyClose, .punct .comma, .punct .blockClose]
    ?_ (by decide)
  simp [JTree.lexemes, commaLexemes, exHB, exHId, chars]

theorem exH_same : JRehashed exJEnv (.vec (.hmap .str (.named 0))) exHA exHB := by
  refine .seq (c := .vec (.hmap .str (.named 0))) (t := .hmap .str (.named 0))
    [(.obj [(.str (chars "a"), exHId 1), (.str (chars "b"), exHId 2)] false,
      .obj [(.str (chars "b"), exHId 2), (.str (chars "a"), exHId 1)] false)] (.inl rfl) fun p hp => ?_
  simp only [List.mem_cons, List.not_mem_nil, or_false] at hp
  subst hp
  refine .hmap (t := .named 0) [(chars "b", exHId 2), (chars "a", exHId 1)]
    [(chars "a", exHId 1, exHId 1), (chars "b", exHId 2, exHId 2)] (by decide) (List.reverse_perm _).symm fun p hp => ?_
  simp only [List.mem_cons, List.not_mem_nil, or_false] at hp
  rcases hp with rfl | rfl <;> exact .refl

/-- A value of `exHA`: the two nodes, under their names. -/
theorem exHA_means : ∃ v, JsonMeans exJEnv toyFloat (.vec (.hmap .str (.named 0))) exHA v := by
  have hdef : exJEnv.defs[0]? = some (.struct exNodeFields false false) := rfl
  have hne : chars "id" ≠ chars "next" := by decide
  have node : ∀ n : Nat, n < 100 → ∃ v, JsonMeans exJEnv toyFloat (.named 0) (exHId n) v := by
    intro n hn
    refine ⟨_, JsonMeans.struct (i := 0) (fs := exNodeFields) (vs := [.int n, .str [], .none])
      [(chars "id", .num (.nat n), .int n)] hdef ⟨fun h => (by cases h), rfl, fun i f w hf hw => ?_⟩ fun p hp f hf hs hnm => ?_⟩
    · rcases i with _ | _ | _ | i
      · cases hf; cases hw
        exact .inl ⟨[], _, [], rfl, rfl, by simp, rfl⟩
      · cases hf; cases hw; rfl
      · cases hf; cases hw
        refine .inr ⟨fun q hq => ?_, .inr (.inl rfl), rfl⟩
        simp only [List.mem_cons, List.not_mem_nil, or_false] at hq
        subst hq
        exact hne
      · cases hf
    · simp only [List.mem_cons, List.not_mem_nil, or_false] at hp
      subst hp
      simp only [exNodeFields, List.mem_cons, List.not_mem_nil, or_false] at hf
      rcases hf with rfl | rfl | rfl
      · exact .int rfl rfl (by simp [IntKind.inRange, IntKind.lo, IntKind.hi, IntKind.signed, IntKind.bytes]; omega) fun _ => ⟨n, rfl⟩
      · cases hs
      · exact absurd hnm.symm hne
  obtain ⟨v, hv⟩ := node 1 (by omega)
  obtain ⟨w, hw⟩ := node 2 (by omega)
  have hab : Val.str (chars "a") ≠ Val.str (chars "b") := by
    intro h; exact absurd (Val.str.inj h) (by decide)
  have hm := JsonMeans.hmap (env := exJEnv) (fl := toyFloat) (k := .str) (t := .named 0) (tr := false)
    (r := [.entry (.str (chars "a")) v, .entry (.str (chars "b")) w])
    [((.str (chars "a"), .str (chars "a")), (exHId 1, v)), ((.str (chars "b"), .str (chars "b")), (exHId 2, w))]
    (by intro p hp; simp only [List.mem_cons, List.not_mem_nil, or_false] at hp; rcases hp with rfl | rfl <;> exact .str)
    (by intro p hp; simp only [List.mem_cons, List.not_mem_nil, or_false] at hp; rcases hp with rfl | rfl; exact hv; exact hw)
    (lastWins_self (by intro e he; simp only [List.map_cons, List.map_nil, List.mem_cons, List.not_mem_nil, or_false] at he
                       rcases he with rfl | rfl <;> exact ⟨_, _, rfl⟩) (List.pairwise_pair.2 hab))
    (firsts_id (List.pairwise_pair.2 hab)).symm
  exact ⟨_, .vec (tr := false) [(_, _)] (by intro p hp; simp only [List.mem_cons, List.not_mem_nil, or_false] at hp; subst hp; exact hm)⟩

/-- C105: ` [ { "a" : { "id" : 1 } , "b" : { "id" : 2 } } ]` is read as a `Vec<HashMap<String, Node>>`, and
` [ { "b" : { "id" : 2 } , "a" : { "id" : 1 } } , ]` as the same with the map visited in another order. -/
example : ∃ v w, Reordered exJEnv (.vec (.hmap .str (.named 0))) v w ∧
    Decodes (fun n => deserializeJson exJEnv toyFloat n (.vec (.hmap .str (.named 0)))
      (chars " [ { \"a\" : { \"id\" : 1 } , \"b\" : { \"id\" : 2 } } ]")) v ∧
    Decodes (fun n => deserializeJson exJEnv toyFloat n (.vec (.hmap .str (.named 0)))
      (chars " [ { \"b\" : { \"id\" : 2 } , \"a\" : { \"id\" : 1 } } , ]")) w := by
  obtain ⟨v, h⟩ := exHA_means
  have ht : TyWf exJEnv (.vec (.hmap .str (.named 0))) := by simp [TyWf]
  have hv := (C63_json_reads_meaning exJEnv_wf exJEnv_productive exJEnv_lawful exJEnv_distinct ht exHA_text v).2 h
  obtain ⟨w, h1, h2⟩ := C105_json_rehashed exJEnv_wf exJEnv_productive exJEnv_lawful exJEnv_distinct ht exH_same exHA_text exHB_text hv
  exact ⟨v, w, h1, hv, h2⟩

/-- C105: `{"a":["x","y"],"b":[]}` and `{"b":[],"a":["y","x"]}`, read as `BTreeMap<String, HashSet<String>>`. -/
example : JRehashed exJEnv (.bmap .str (.hset .str))
    (.obj [(.str (chars "a"), .arr [.str (chars "x"), .str (chars "y")] false), (.str (chars "b"), .arr [] false)] false)
    (.obj [(.str (chars "b"), .arr [] false), (.str (chars "a"), .arr [.str (chars "y"), .str (chars "x")] false)] false) := by
  refine .bmap (t := .hset .str) [(chars "b", .arr [] false), (chars "a", .arr [.str (chars "y"), .str (chars "x")] false)]
    [(chars "a", .arr [.str (chars "x"), .str (chars "y")] false, .arr [.str (chars "y"), .str (chars "x")] false),
     (chars "b", .arr [] false, .arr [] false)] (by decide) (List.reverse_perm _).symm fun p hp => ?_
  simp only [List.mem_cons, List.not_mem_nil, or_false] at hp
  rcases hp with rfl | rfl
  · exact .hset (List.reverse_perm _).symm
  · exact .refl

/-- `(id: 1)`. -/
def exRHId (n : Nat) : RTree := .fields [(chars "id", .num (.nat n))] false

/-- `[{"a": (id: 1), "b": (id: 2)}]`. -/
def exRHA : RTree := .list [.map [(.str (chars "a"), exRHId 1), (.str (chars "b"), exRHId 2)] false] false

/-- `[{"b": (id: 2), "a": (id: 1),}]`. -/
def exRHB : RTree := .list [.map [(.str (chars "b"), exRHId 2), (.str (chars "a"), exRHId 1)] true] false

theorem exRHB_text : RText toyFloat exRHB (chars " [ { \"b\" : ( id : 2 ) , \"a\" : ( id : 1 ) , } ]") := by
  refine rtext_spaced [.punct .blockOpen, .punct .curlyOpen, .str (chars "b"), .punct .colon, .punct .parenOpen, .word (chars "id"),
    .punct .colon, .num (.nat 2), .punct .parenClose, .punct .comma, .str (chars "a"), .punct .colon, .punct .parenOpen,
    .word (chars "id"), .punct .colon, .num (.nat 1), .punct .parenClose, .punct .comma, .punct .curlyClose, .punct .blockClose]
    ?_ (by decide)
  simp [RTree.lexemes, commaLexemes, exRHB, exRHId, chars]

theorem exRH_same : RRehashed exJEnv (.vec (.hmap .str (.named 0))) exRHA exRHB := by
  refine .seq (c := .vec (.hmap .str (.named 0))) (t := .hmap .str (.named 0))
    [(.map [(.str (chars "a"), exRHId 1), (.str (chars "b"), exRHId 2)] false,
      .map [(.str (chars "b"), exRHId 2), (.str (chars "a"), exRHId 1)] true)] (.inl rfl) fun p hp => ?_
  simp only [List.mem_cons, List.not_mem_nil, or_false] at hp
  subst hp
  refine .hmap (t := .named 0) [(chars "b", exRHId 2), (chars "a", exRHId 1)]
    [(chars "a", exRHId 1, exRHId 1), (chars "b", exRHId 2, exRHId 2)] (by decide) (List.reverse_perm _).symm fun p hp => ?_
  simp only [List.mem_cons, List.not_mem_nil, or_false] at hp
  rcases hp with rfl | rfl <;> exact .refl

theorem exRHA_means : ∃ v, RonMeans exJEnv toyFloat (.vec (.hmap .str (.named 0))) exRHA v := by
  have hdef : exJEnv.defs[0]? = some (.struct exNodeFields false false) := rfl
  have hne : chars "id" ≠ chars "next" := by decide
  have node : ∀ n : Nat, n < 100 → ∃ v, RonMeans exJEnv toyFloat (.named 0) (exRHId n) v := by
    intro n hn
    obtain ⟨vs, h⟩ := exNode_reads (cd := false) (ps := [(chars "id", .num (.nat n), .int n)])
      (exNode_known (by simp)) ⟨(chars "id", .num (.nat n), .int n), by simp, rfl⟩
    refine ⟨_, RonMeans.struct (tr := false) _ hdef h fun p hp f hf hs hnm => ?_⟩
    simp only [List.mem_cons, List.not_mem_nil, or_false] at hp
    subst hp
    rcases exNode_tys hf hs with ⟨e, ht⟩ | ⟨e, ht⟩
    · rw [ht]
      exact .int rfl rfl (by simp [IntKind.inRange, IntKind.lo, IntKind.hi, IntKind.signed, IntKind.bytes]; omega) fun _ => ⟨n, rfl⟩
    · exact absurd (hnm.symm.trans e) hne
  obtain ⟨v, hv⟩ := node 1 (by omega)
  obtain ⟨w, hw⟩ := node 2 (by omega)
  have hab : Val.str (chars "a") ≠ Val.str (chars "b") := by
    intro h; exact absurd (Val.str.inj h) (by decide)
  have hm := RonMeans.hmap (env := exJEnv) (fl := toyFloat) (k := .str) (t := .named 0) (tr := false)
    (r := [.entry (.str (chars "a")) v, .entry (.str (chars "b")) w])
    [((.str (chars "a"), .str (chars "a")), (exRHId 1, v)), ((.str (chars "b"), .str (chars "b")), (exRHId 2, w))]
    (by intro p hp; simp only [List.mem_cons, List.not_mem_nil, or_false] at hp; rcases hp with rfl | rfl <;> exact .str)
    (by intro p hp; simp only [List.mem_cons, List.not_mem_nil, or_false] at hp; rcases hp with rfl | rfl; exact hv; exact hw)
    (lastWins_self (by intro e he; simp only [List.map_cons, List.map_nil, List.mem_cons, List.not_mem_nil, or_false] at he
                       rcases he with rfl | rfl <;> exact ⟨_, _, rfl⟩) (List.pairwise_pair.2 hab))
    (firsts_id (List.pairwise_pair.2 hab)).symm
  exact ⟨_, .vec (tr := false) [(_, _)] (by intro p hp; simp only [List.mem_cons, List.not_mem_nil, or_false] at hp; subst hp; exact hm)⟩

/-- C105: the RON value `[{"a": (id: 1), "b": (id: 2)}]` means a `Vec<HashMap<String, Node>>`, and the text
` [ { "b" : ( id : 2 ) , "a" : ( id : 1 ) , } ]` is read as the same with the map visited in another order. -/
example : ∃ v w, Reordered exJEnv (.vec (.hmap .str (.named 0))) v w ∧
    RonMeans exJEnv toyFloat (.vec (.hmap .str (.named 0))) exRHA v ∧
    Decodes (fun n => deserializeRon exJEnv toyFloat n (.vec (.hmap .str (.named 0)))
      (chars " [ { \"b\" : ( id : 2 ) , \"a\" : ( id : 1 ) , } ]")) w := by
  obtain ⟨v, h⟩ := exRHA_means
  obtain ⟨w, h1, h2, _⟩ := C105_ron_rehashed exJEnv_lawful exRH_same h
  exact ⟨v, w, h1, h, ron_reads exJEnv_lawful exRHB_text h2⟩

end NS
