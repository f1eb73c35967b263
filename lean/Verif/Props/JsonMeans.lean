import Verif.Lemmas.JsonMeans3
import Verif.Lemmas.JsonRender
import Verif.Props.ExamplesText
import Verif.Props.JsonHalts
/-!
# C63: JSON values are read as exactly what they mean

`JsonMeans` (`Verif/Spec/JsonMeans.lean`) says, rule by rule and without reference to the reader, which value
of a type a JSON value denotes.  A text of a JSON value, in any layout, is read as `v` exactly if the JSON
value denotes `v`; so the reader neither refuses a meaningful value, nor invents a value.
-/
namespace NS
variable {env : Env} {fl : FloatOps}

/-- **C63**: a text of the JSON value `J` is read as `v` if and only if `J` denotes `v`. -/
theorem C63_json_reads_meaning (hw : ProgWf env) (hp : Productive env) (hk : LawfulKeys env) (hd : DistinctProg env)
    {t : Ty} (ht : TyWf env t) {J : JTree} {txt : List Char} (hx : JText fl J txt) (v : Val) :
    Decodes (fun n => deserializeJson env fl n t txt) v ↔ JsonMeans env fl t J v := by
  rw [decodes_iff hw hp ht hx]
  constructor
  · rintro ⟨_, n, h⟩
    exact means_of_decode hk hd n t J v hx.spellable (h n (Nat.le_refl _))
  · intro h
    obtain ⟨n, h⟩ := decode_of_means hk hd h hx.spellable
    exact ⟨by simp, n, h⟩

/-- **C63**: a text of a JSON value that denotes nothing is an error (provided that no integer is large
enough to overflow a time). -/
theorem C63_json_rejects_meaningless (hw : ProgWf env) (hp : Productive env) (hk : LawfulKeys env) (hd : DistinctProg env)
    {t : Ty} (ht : TyWf env t) {J : JTree} {txt : List Char} (hx : JText fl J txt)
    (hs : (∀ v, .num (.nat v) ∈ J.lexemes → v < 2 ^ 63 - 1) ∨ NoTime env ∧ noTime t = true) :
    Rejects (fun n => deserializeJson env fl n t txt) ↔ ∀ v, ¬ JsonMeans env fl t J v := by
  constructor
  · rintro ⟨n, h⟩ v hv
    obtain ⟨m, g⟩ := (C63_json_reads_meaning hw hp hk hd ht hx v).2 hv
    obtain ⟨e, s, h⟩ := h (max n m) (by omega)
    obtain ⟨s', g⟩ := g (max n m) (by omega)
    simp only at h g
    rw [h] at g; cases g
  · intro h
    rcases C32_json_no_panic_on_values hw hp ht hx hs with ⟨v, g⟩ | g
    · exact absurd ((C63_json_reads_meaning hw hp hk hd ht hx v).1 g) (h v)
    · exact g

/-- **C63**: a JSON value denotes at most one value of a type. -/
theorem C63_json_meaning_unique (hw : ProgWf env) (hp : Productive env) (hk : LawfulKeys env) (hd : DistinctProg env)
    {t : Ty} (ht : TyWf env t) {J : JTree} {txt : List Char} (hx : JText fl J txt) {v w : Val}
    (h : JsonMeans env fl t J v) (g : JsonMeans env fl t J w) : v = w := by
  obtain ⟨n, h⟩ := (C63_json_reads_meaning hw hp hk hd ht hx v).2 h
  obtain ⟨m, g⟩ := (C63_json_reads_meaning hw hp hk hd ht hx w).2 g
  obtain ⟨s, h⟩ := h (max n m) (by omega)
  obtain ⟨s', g⟩ := g (max n m) (by omega)
  simp only at h g
  rw [h] at g
  injection g

theorem exJEnv_distinct : DistinctProg exJEnv := by
  constructor
  · intro i fs cd nul h
    simp only [exJEnv_defs] at h
    match i with
    | 0 => simp [exNode] at h; obtain ⟨rfl, _⟩ := h; simp [DistinctNames]; decide
    | 1 => simp [exEnum] at h
    | 2 => simp [exMeters] at h
    | 3 => simp [exConf] at h; obtain ⟨rfl, _⟩ := h; simp [DistinctNames]; decide
    | 4 => simp [exEmpty] at h; obtain ⟨rfl, _⟩ := h; simp [DistinctNames]
    | n + 5 => simp at h
  · intro i vars h
    simp only [exJEnv_defs] at h
    match i with
    | 0 => simp [exNode] at h
    | 1 => simp [exEnum] at h; subst h; simp [DistinctVariants]; decide
    | 2 => simp [exMeters] at h
    | 3 => simp [exConf] at h
    | 4 => simp [exEmpty] at h
    | n + 5 => simp at h
  · intro i vars h
    simp only [exJEnv_defs] at h
    match i with
    | 0 => simp [exNode] at h
    | 1 =>
      simp [exEnum] at h; subst h
      intro v hv fs hs
      simp only [List.mem_cons, List.not_mem_nil, or_false] at hv
      rcases hv with rfl | rfl | rfl <;> simp at hs
      subst hs
      simp [DistinctNames]; decide
    | 2 => simp [exMeters] at h
    | 3 => simp [exConf] at h
    | 4 => simp [exEmpty] at h
    | n + 5 => simp at h

/-- `{"B":[3,"x",]}`. -/
def exB : JTree := .obj [(.str (chars "B"), .arr [.num (.nat 3), .str (chars "x")] true)] false

theorem exB_text : JText toyFloat (.arr [.str (chars "A"), exB] false)
    (chars " [ \"A\" , { \"B\" : [ 3 , \"x\" , ] } ]") := by
  refine jtext_spaced [.punct .blockOpen, .str (chars "A"), .punct .comma, .punct .curlyOpen, .str (chars "B"), .punct .colon,
    .punct .blockOpen, .num (.nat 3), .punct .comma, .str (chars "x"), .punct .comma, .punct .blockClose, .punct .curlyClose,
    .punct .blockClose] ?_ (by decide)
  simp [JTree.lexemes, commaLexemes, exB, chars]

theorem exB_means : JsonMeans exJEnv toyFloat (.vec (.named 1)) (.arr [.str (chars "A"), exB] false)
    (.seq [.variant 0 [], .variant 1 [.int 3, .str (chars "x")]]) := by
  refine .vec (t := .named 1) (tr := false) [(.str (chars "A"), .variant 0 []), (exB, .variant 1 [.int 3, .str (chars "x")])] ?_
  intro p hp
  simp only [List.mem_cons, List.not_mem_nil, or_false] at hp
  rcases hp with rfl | rfl
  · exact .variant (i := 1) (j := 0) (var := { name := chars "A", shape := .unit }) rfl rfl rfl
  · refine .tupleVariant (i := 1) (j := 1) (var := { name := chars "B", shape := .tuple [.int .i8, .str] }) (tr := true)
      [(.int .i8, .num (.nat 3), .int 3), (.str, .str (chars "x"), .str (chars "x"))] rfl rfl rfl ?_
    intro p hp
    simp only [List.mem_cons, List.not_mem_nil, or_false] at hp
    rcases hp with rfl | rfl
    · exact .int rfl rfl (by decide) (by simp [IntKind.signed])
    · exact .str

/-- `Vec<E>` reads ` [ "A" , { "B" : [ 3 , "x" , ] } ]` as `[E::A, E::B(3, "x")]`. -/
example : Decodes (fun n => deserializeJson exJEnv toyFloat n (.vec (.named 1)) (chars " [ \"A\" , { \"B\" : [ 3 , \"x\" , ] } ]"))
    (.seq [.variant 0 [], .variant 1 [.int 3, .str (chars "x")]]) :=
  (C63_json_reads_meaning exJEnv_wf exJEnv_productive exJEnv_lawful exJEnv_distinct (by simp [TyWf]) exB_text _).2 exB_means

/-- And as nothing else. -/
example (v : Val) (h : JsonMeans exJEnv toyFloat (.vec (.named 1)) (.arr [.str (chars "A"), exB] false) v) :
    v = .seq [.variant 0 [], .variant 1 [.int 3, .str (chars "x")]] :=
  C63_json_meaning_unique exJEnv_wf exJEnv_productive exJEnv_lawful exJEnv_distinct (by simp [TyWf]) exB_text h exB_means

/-- `Vec<E>` refuses a text of `[7]`. -/
example {txt : List Char} (hx : JText toyFloat (.arr [.num (.nat 7)] false) txt) :
    Rejects (fun n => deserializeJson exJEnv toyFloat n (.vec (.named 1)) txt) := by
  refine (C63_json_rejects_meaningless exJEnv_wf exJEnv_productive exJEnv_lawful exJEnv_distinct (by simp [TyWf]) hx
    (.inl ?_)).2 fun v hv => ?_
  · intro v hv; simp [JTree.lexemes, commaLexemes] at hv; subst hv; decide
  · generalize hJ : JTree.arr [.num (.nat 7)] false = J at hv
    cases hv with
    | vec ps h =>
      injection hJ with e
      match ps, e with
      | [p], e =>
        simp at e
        have := h p (List.mem_singleton.2 rfl)
        obtain ⟨J, w⟩ := p
        subst e
        cases this <;> simp_all [exNode, exEnum, exMeters, exConf, exEmpty]
      | [], e => simp at e
      | _ :: _ :: _, e => simp at e

end NS
