import Verif.Lemmas.StreamText
import Verif.Lemmas.StreamRon
import Verif.Lemmas.JsonSaysOf
import Verif.Props.JsonRound
import Verif.Props.RonRound
import Verif.Props.RonWhole
import Verif.Props.Reread
/-! # Properties C88, C89: several values in one text -/
namespace NS
variable {env : Env} {fl : FloatOps}

/-- **C66** (the two descriptions agree): what a JSON value denotes is what its lexemes say. -/
theorem C66_json_meaning_is_said {t : Ty} {J : JTree} {v : Val} (h : JsonMeans env fl t J v) : JsonSays env fl t J.lexemes v :=
  says_of_means h

/-! ## C88 -/

/-- **C88**: reading values of the types `ts` with `de_json`, one after the other, gives `vs` and leaves nothing
exactly if the text consists of such values (and nothing else). -/
theorem C88_json_each_exactly (hfl : FloatLaws fl) (hk : LawfulKeys env) (hd : DistinctProg env) (ts : List Ty) (txt : List Char)
    (vs : List Val) :
    DecodesAll (fun n => jsonEach env fl n ts txt) vs ↔ ∃ ls, JWhole fl ls txt ∧ JsonRow env fl ts ls vs := by
  constructor
  · rintro ⟨n, h⟩
    obtain ⟨s, e, he⟩ := h n (Nat.le_refl _)
    obtain ⟨_, s1, e1, e⟩ := M.bind_eq_ok.1 (show (jNext fl >>= fun _ => readEach (deJson env fl n) ts : PM (List Val)) (initSt jcol txt) = _ from e)
    obtain ⟨l, h1, h2⟩ := json_first hfl e1
    obtain ⟨ls, g1, g2, _⟩ := jsonEach_sound hfl hk hd ts h1 h2 e he
    exact ⟨ls, g1, g2⟩
  · rintro ⟨ls, hx, h⟩
    obtain ⟨r, hs⟩ := hx.stream
    exact jsonEach_of_row hfl hk hd hs h

/-- **C88** (any budget): whatever such a run returns, if nothing is left, is what the text consists of. -/
theorem C88_json_each_only (hfl : FloatLaws fl) (hk : LawfulKeys env) (hd : DistinctProg env) {ts : List Ty} {txt : List Char}
    {vs : List Val} {n : Nat} {s : PSt} (h : jsonEach env fl n ts txt = .ok vs s) (he : s.tok = .eof) :
    DecodesAll (fun n => jsonEach env fl n ts txt) vs := by
  obtain ⟨_, s1, e1, e⟩ := M.bind_eq_ok.1 (show (jNext fl >>= fun _ => readEach (deJson env fl n) ts : PM (List Val)) (initSt jcol txt) = _ from h)
  obtain ⟨l, h1, h2⟩ := json_first hfl e1
  obtain ⟨ls, g1, g2, _⟩ := jsonEach_sound hfl hk hd ts h1 h2 e he
  exact (C88_json_each_exactly hfl hk hd ts txt vs).2 ⟨ls, g1, g2⟩

/-- **C88**: reading values of one type with `de_json` until the end of the text gives `vs` exactly if the text
consists of such values. -/
theorem C88_json_until_eof_exactly (hfl : FloatLaws fl) (hk : LawfulKeys env) (hd : DistinctProg env) (t : Ty) (txt : List Char)
    (vs : List Val) :
    DecodesAll (fun n => jsonUntilEof env fl n t txt) vs ↔
      ∃ ls, JWhole fl ls txt ∧ JsonRow env fl (List.replicate vs.length t) ls vs := by
  constructor
  · rintro ⟨n, h⟩
    obtain ⟨s, e, he⟩ := h n (Nat.le_refl _)
    obtain ⟨_, s1, e1, e⟩ := M.bind_eq_ok.1 (show (jNext fl >>= fun _ => readUntilEof (deJson env fl n t) n : PM (List Val)) (initSt jcol txt) = _ from e)
    obtain ⟨l, h1, h2⟩ := json_first hfl e1
    obtain ⟨ls, g1, g2, _⟩ := jsonEach_sound hfl hk hd _ h1 h2 (readEach_of_until n e).1 he
    exact ⟨ls, g1, g2⟩
  · rintro ⟨ls, hx, h⟩
    obtain ⟨r, hs⟩ := hx.stream
    exact jsonUntilEof_of_row hfl hk hd hs h

/-- **C88**: the same for `de_ron`. -/
theorem C88_ron_each_exactly (hfl : FloatLaws fl) (hk : LawfulKeys env) (hd : DistinctProg env) (ts : List Ty) (txt : List Char)
    (vs : List Val) :
    DecodesAll (fun n => ronEach env fl n ts txt) vs ↔ ∃ ls, RWhole fl ls txt ∧ RonRow env fl ts ls vs := by
  constructor
  · rintro ⟨n, h⟩
    obtain ⟨s, e, he⟩ := h n (Nat.le_refl _)
    obtain ⟨_, s1, e1, e⟩ := M.bind_eq_ok.1 (show (rNext fl >>= fun _ => readEach (deRon env fl n) ts : PM (List Val)) (initSt rcol txt) = _ from e)
    obtain ⟨l, h1, h2⟩ := ron_first hfl e1
    obtain ⟨ls, g1, g2, _⟩ := ronEach_sound hfl hk hd ts h1 h2 e he
    exact ⟨ls, g1, g2⟩
  · rintro ⟨ls, hx, h⟩
    obtain ⟨r, hs⟩ := hx.stream
    exact ronEach_of_row hk hs h

/-- **C88** (any budget): the same for `de_ron`. -/
theorem C88_ron_each_only (hfl : FloatLaws fl) (hk : LawfulKeys env) (hd : DistinctProg env) {ts : List Ty} {txt : List Char}
    {vs : List Val} {n : Nat} {s : PSt} (h : ronEach env fl n ts txt = .ok vs s) (he : s.tok = .eof) :
    DecodesAll (fun n => ronEach env fl n ts txt) vs := by
  obtain ⟨_, s1, e1, e⟩ := M.bind_eq_ok.1 (show (rNext fl >>= fun _ => readEach (deRon env fl n) ts : PM (List Val)) (initSt rcol txt) = _ from h)
  obtain ⟨l, h1, h2⟩ := ron_first hfl e1
  obtain ⟨ls, g1, g2, _⟩ := ronEach_sound hfl hk hd ts h1 h2 e he
  exact (C88_ron_each_exactly hfl hk hd ts txt vs).2 ⟨ls, g1, g2⟩

/-- **C88**: the same for `de_ron`, to the end of the text. -/
theorem C88_ron_until_eof_exactly (hfl : FloatLaws fl) (hk : LawfulKeys env) (hd : DistinctProg env) (t : Ty) (txt : List Char)
    (vs : List Val) :
    DecodesAll (fun n => ronUntilEof env fl n t txt) vs ↔
      ∃ ls, RWhole fl ls txt ∧ RonRow env fl (List.replicate vs.length t) ls vs := by
  constructor
  · rintro ⟨n, h⟩
    obtain ⟨s, e, he⟩ := h n (Nat.le_refl _)
    obtain ⟨_, s1, e1, e⟩ := M.bind_eq_ok.1 (show (rNext fl >>= fun _ => readUntilEof (deRon env fl n t) n : PM (List Val)) (initSt rcol txt) = _ from e)
    obtain ⟨l, h1, h2⟩ := ron_first hfl e1
    obtain ⟨ls, g1, g2, _⟩ := ronEach_sound hfl hk hd _ h1 h2 (readEach_of_until n e).1 he
    exact ⟨ls, g1, g2⟩
  · rintro ⟨ls, hx, h⟩
    obtain ⟨r, hs⟩ := hx.stream
    exact ronUntilEof_of_row hk hs h

/-! ## C89 -/

/-- **C89**: values of one type written with `serialize_json`, each followed by white space (say, a line each), are
read back by `de_json` until the end of the text: as many values, in the same order, skipped fields at their
defaults.  For enums (also inside `Option`, `Box`, …): if no unit variant follows a unit variant, see
`C89_json_lines_of_unit_variants_lost`. -/
theorem C89_json_lines_roundtrip (hk : LawfulKeys env) (hfl : FloatLaws fl) (hd : DistinctProg env) (hE : JsonEnvOk env) {t : Ty} (chk : Bool)
    (items : List Item)
    (h : ∀ x ∈ items, SkipEq env false t x.written x.read ∧ HasTy env t x.read ∧ JsonExact env t x.read ∧
      serializeJson env fl chk t x.written = some x.text ∧ Spacing x.sep)
    (hu : EnumLike env t → ∀ a x y b, items = a ++ x :: y :: b → ¬ (IsStrText fl x.text ∧ IsStrText fl y.text)) :
    DecodesAll (fun n => jsonUntilEof env fl n t (itemsText items)) (items.map Item.read) := by
  obtain ⟨ls, h1, h2, _⟩ := json_row_of_items (env := env) (fl := fl) (t := t) items (fun x hx => by
    obtain ⟨k1, k2, k3, k4, k5⟩ := h x hx
    refine ⟨k5, ?_⟩
    obtain ⟨J, g1, _, g3⟩ := jround hk hfl hE x.read t k2 (k3.text hfl)
    have e : x.text = serJson env fl t x.read := by
      rw [skipEq_serialize k1] at k4
      unfold serializeJson at k4
      split at k4
      · cases k4
      · injection k4 with k4; exact k4.symm
    have hJ : JDoc fl J.lexemes x.text [] := by
      have := g1 [] [] [] .nil .nil
      rw [e]; simpa using this
    exact ⟨J, hJ, says_of_means (means_of_decode hk hd _ t J x.read hJ.spellable (g3 _ (Nat.le_refl _)))⟩) hu
  refine jsonUntilEof_of_row hfl hk hd (JFull.stream (h1 [] .nil)) ?_
  simpa using h2

/-- **C89**: the same for `serialize_ron` and `de_ron`; for enums, if only the last value is a unit variant. -/
theorem C89_ron_lines_roundtrip (hk : LawfulKeys env) (hfl : FloatLaws fl) (hE : RonEnvOk env) {t : Ty} (chk : Bool)
    (items : List Item)
    (h : ∀ x ∈ items, SkipEq env false t x.written x.read ∧ HasTy env t x.read ∧ RonExact env t x.read ∧
      serializeRon env fl chk t x.written = some x.text ∧ Spacing x.sep)
    (hu : EnumLike env t → ∀ a x y b, items = a ++ x :: y :: b → ¬ IsWordText fl x.text) :
    DecodesAll (fun n => ronUntilEof env fl n t (itemsText items)) (items.map Item.read) := by
  obtain ⟨ls, h1, h2, _⟩ := ron_row_of_items (env := env) (fl := fl) (t := t) items (fun x hx => by
    obtain ⟨k1, k2, k3, k4, k5⟩ := h x hx
    refine ⟨k5, ?_⟩
    obtain ⟨J, g1, _, g3⟩ := rround hk hfl hE x.read t k2 (k3.text hfl hE)
    have e : x.text = serRon env fl t x.read := by
      rw [rSkipEq_serialize k1] at k4
      unfold serializeRon at k4
      split at k4
      · cases k4
      · injection k4 with k4; exact k4.symm
    have hJ : RDoc fl J.lexemes x.text [] := by
      have := g1 [] [] [] .nil .nil
      rw [e]; simpa using this
    exact ⟨J, hJ, g3⟩) hu
  refine ronUntilEof_of_row hk (RFull.stream (h1 [] .nil)) ?_
  simpa using h2

/-- **C89** (the exception): two unit variants of an enum, written one after the other with white space between and
after them, are both read as the *second* one. -/
theorem C89_json_lines_of_unit_variants_lost (hk : LawfulKeys env) (hfl : FloatLaws fl) (hd : DistinctProg env) (hE : JsonEnvOk env)
    {i j k : Nat} {vars : List Variant} {vj vk : Variant} (hi : env.defs[i]? = some (.enum vars)) (hj : vars[j]? = some vj)
    (hk' : vars[k]? = some vk) (uj : vj.shape = .unit) (uk : vk.shape = .unit) {chk : Bool} {ta tb s1 s2 : List Char}
    (ha : serializeJson env fl chk (.named i) (.variant j []) = some ta)
    (hb : serializeJson env fl chk (.named i) (.variant k []) = some tb) (h1 : Spacing s1) (h2 : Spacing s2) :
    DecodesAll (fun n => jsonUntilEof env fl n (.named i) (ta ++ s1 ++ (tb ++ s2))) [.variant k [], .variant k []] := by
  have text : ∀ {j vj t}, vars[j]? = some vj → vj.shape = .unit → serializeJson env fl chk (.named i) (.variant j []) = some t →
      JDoc fl [.str vj.jsonName] t [] := by
    intro j vj t hj uj ht
    have e : t = jsonLabel vj.jsonName := by
      obtain ⟨nm, rn, sh⟩ := vj
      simp only at uj
      subst uj
      unfold serializeJson at ht
      split at ht
      · cases ht
      · injection ht with ht
        rw [← ht, serJson]
        simp only [hi, hj]
        rfl
    have hp : PlainName vj.jsonName := (hE i _ hi).1 vj (List.mem_of_getElem? hj)
    have := label_spells (fl := fl) hp [] [] [] .nil .nil
    rw [e]
    simpa [JTree.lexemes] using this
  have da := (text hj uj ha).extend (r := s1 ++ (tb ++ s2)) h1.start
  have db := ((text hk' uk hb).extend (r := s2 ++ []) h2.start).before h1.1
  rw [List.append_nil] at db
  have d := da.app db
  refine jsonUntilEof_of_row hfl hk hd (ls := [.str vj.jsonName] ++ [.str vk.jsonName])
    (JFull.stream ⟨s2, .inl h2.1, by simpa using d⟩) ?_
  have hm : JsonSays env fl (.named i) [.str vk.jsonName] (.variant k []) := .variant hi hk' uk
  exact .strs (.variant hi hk' uk) (by simpa using JsonRow.cons hm (rest := []) (by simp) .nil)

/-- **C89** (the exception): the same in RON. -/
theorem C89_ron_lines_of_unit_variants_lost (hk : LawfulKeys env) (hE : RonEnvOk env)
    {i j k : Nat} {vars : List Variant} {vj vk : Variant} (hi : env.defs[i]? = some (.enum vars)) (hj : vars[j]? = some vj)
    (hk' : vars[k]? = some vk) (uj : vj.shape = .unit) (uk : vk.shape = .unit) {chk : Bool} {ta tb s1 s2 : List Char}
    (ha : serializeRon env fl chk (.named i) (.variant j []) = some ta)
    (hb : serializeRon env fl chk (.named i) (.variant k []) = some tb) (h1 : Spacing s1) (h2 : Spacing s2) :
    DecodesAll (fun n => ronUntilEof env fl n (.named i) (ta ++ s1 ++ (tb ++ s2))) [.variant k [], .variant k []] := by
  have text : ∀ {j vj t}, vars[j]? = some vj → vj.shape = .unit → serializeRon env fl chk (.named i) (.variant j []) = some t →
      RDoc fl [.word vj.name] t [] := by
    intro j vj t hj uj ht
    have e : t = vj.name := by
      obtain ⟨nm, rn, sh⟩ := vj
      simp only at uj
      subst uj
      unfold serializeRon at ht
      split at ht
      · cases ht
      · injection ht with ht
        rw [← ht, serRon]
        simp only [hi, hj]
    have hp : RonName vj.name := (hE i _ hi).1 vj (List.mem_of_getElem? hj)
    have := RSpells.word (fl := fl) hp.1 [] [] [] .nil .nil
    rw [e]
    simpa [RTree.lexemes] using this
  have first : ∀ i < k, ∀ u, vars[i]? = some u → u.name ≠ vk.name := by
    intro m hm u hu
    have hp := (hE i _ hi).2.1
    rw [List.pairwise_iff_getElem] at hp
    obtain ⟨l1, e1⟩ := List.getElem?_eq_some_iff.1 hu
    obtain ⟨l2, e2⟩ := List.getElem?_eq_some_iff.1 hk'
    rw [← e1, ← e2]
    exact hp m k l1 l2 hm
  have da := (text hj uj ha).extend (r := s1 ++ (tb ++ s2)) h1.start
  have db := ((text hk' uk hb).extend (r := s2 ++ []) h2.start).before h1.1
  rw [List.append_nil] at db
  have d := da.app db
  refine ronUntilEof_of_row hk (ls := [.word vj.name] ++ [.word vk.name])
    (RFull.stream ⟨s2, .inl h2.1, by simpa using d⟩) ?_
  have hm : RonMeans env fl (.named i) (.word vk.name) (.variant k []) :=
    .variant hi ⟨hk', rfl, ((hE i _ hi).1 vk (List.mem_of_getElem? hk')).2, first⟩ uk
  refine .words (.variant hi ((hE i _ hi).1 vj (List.mem_of_getElem? hj)).2 hk' rfl first uk) ?_
  have := RonRow.cons hm (rest := []) (by simp) .nil
  simpa [RTree.lexemes] using this

/-! ## Examples -/

/-- The run ends in `Ok` of these values, at the end of the text. -/
def Out.isAll (vs : List Val) : Out PErr PSt (List Val) → Bool
  | .ok ws s => Val.same (.seq ws) (.seq vs) && s.tok == .eof
  | _ => false

theorem Out.isAll_spec {vs : List Val} {r : Out PErr PSt (List Val)} (h : r.isAll vs = true) : ∃ s, r = .ok vs s ∧ s.tok = .eof := by
  cases r <;> simp [Out.isAll] at h
  rename_i w s
  have := Val.same_eq _ _ h.1
  injection this with this
  exact ⟨s, by rw [this], h.2⟩

/-- A number, a string and an object: three values. -/
example : ∃ ls, JWhole toyFloat ls (chars "7 \"a\" /* c */ {\"id\":5}") ∧
    JsonRow exJEnv toyFloat [.int .u8, .str, .named 0] ls [.int 7, .str ['a'], .struct [.int 5, .str [], .none]] := by
  obtain ⟨s, h, he⟩ := Out.isAll_spec (r := jsonEach exJEnv toyFloat 20 [.int .u8, .str, .named 0] (chars "7 \"a\" /* c */ {\"id\":5}"))
    (vs := [.int 7, .str ['a'], .struct [.int 5, .str [], .none]]) (by decide +kernel)
  exact (C88_json_each_exactly toyFloat_laws exJEnv_lawful exJEnv_distinct _ _ _).1
    (C88_json_each_only toyFloat_laws exJEnv_lawful exJEnv_distinct h he)

example : ∃ ls, RWhole toyFloat ls (chars "7 \"a\" /* c */ (id:5)") ∧
    RonRow exJEnv toyFloat [.int .u8, .str, .named 0] ls [.int 7, .str ['a'], .struct [.int 5, .str [], .none]] := by
  obtain ⟨s, h, he⟩ := Out.isAll_spec (r := ronEach exJEnv toyFloat 20 [.int .u8, .str, .named 0] (chars "7 \"a\" /* c */ (id:5)"))
    (vs := [.int 7, .str ['a'], .struct [.int 5, .str [], .none]]) (by decide +kernel)
  exact (C88_ron_each_exactly toyFloat_laws exJEnv_lawful exJEnv_distinct _ _ _).1
    (C88_ron_each_only toyFloat_laws exJEnv_lawful exJEnv_distinct h he)

theorem blank_newline : Spacing ['\n'] := ⟨.space (by simp) .nil, '\n', [], rfl, by simp⟩

theorem exConf_not_enum : ¬ EnumLike exJEnv (.named 3) := by
  intro h
  cases h with
  | enum h => simp [exConf] at h
  | transparent h _ => simp [exConf] at h

theorem exConfVal_ronExact : RonExact exJEnv (.named 3) exConfVal := by
  simp [RonExact, Holds, exConfVal, exConf, HoldsFields, HoldsTys, exMeters, RonNodeOk, IntKind.textual, Field.absentValue,
    finite64]
  intro h
  cases h

/-- `Conf` with something in its skipped field. -/
def exLooseConf : Val := .struct [.str ['a', '"', 'b'], .int 7, .some (.struct [.int 12]), .int 99, .f64 5]

/-- Two lines of `Conf`. -/
example : DecodesAll (fun n => jsonUntilEof exJEnv toyFloat n (.named 3)
    (serJson exJEnv toyFloat (.named 3) exLooseConf ++ '\n' :: (serJson exJEnv toyFloat (.named 3) exConfVal ++ ['\n'])))
    [exConfVal, exConfVal] := by
  have hs : SkipEq exJEnv false (.named 3) exLooseConf exConfVal := by
    simp [SkipEq, exLooseConf, exConfVal, exConf, SkipEqFields, SkipEqTys, exMeters]
  have hs' : SkipEq exJEnv false (.named 3) exConfVal exConfVal := by
    simp [SkipEq, exConfVal, exConf, SkipEqFields, SkipEqTys, exMeters]
  have := C89_json_lines_roundtrip exJEnv_lawful toyFloat_laws exJEnv_distinct exJEnv_ok (t := .named 3) false
    [⟨exLooseConf, exConfVal, serJson exJEnv toyFloat (.named 3) exLooseConf, ['\n']⟩,
      ⟨exConfVal, exConfVal, serJson exJEnv toyFloat (.named 3) exConfVal, ['\n']⟩]
    (by
      refine List.forall_mem_cons.2 ⟨⟨hs, exConfVal_typed, exConfVal_exact, rfl, blank_newline⟩, ?_⟩
      exact List.forall_mem_cons.2 ⟨⟨hs', exConfVal_typed, exConfVal_exact, rfl, blank_newline⟩, by simp⟩)
    (fun h => absurd h exConf_not_enum)
  simpa [itemsText] using this

example : DecodesAll (fun n => ronUntilEof exJEnv toyFloat n (.named 3)
    (serRon exJEnv toyFloat (.named 3) exLooseConf ++ '\n' :: (serRon exJEnv toyFloat (.named 3) exConfVal ++ ['\n'])))
    [exConfVal, exConfVal] := by
  have hs : SkipEq exJEnv false (.named 3) exLooseConf exConfVal := by
    simp [SkipEq, exLooseConf, exConfVal, exConf, SkipEqFields, SkipEqTys, exMeters]
  have hs' : SkipEq exJEnv false (.named 3) exConfVal exConfVal := by
    simp [SkipEq, exConfVal, exConf, SkipEqFields, SkipEqTys, exMeters]
  have := C89_ron_lines_roundtrip exJEnv_lawful toyFloat_laws exJEnv_ron (t := .named 3) false
    [⟨exLooseConf, exConfVal, serRon exJEnv toyFloat (.named 3) exLooseConf, ['\n']⟩,
      ⟨exConfVal, exConfVal, serRon exJEnv toyFloat (.named 3) exConfVal, ['\n']⟩]
    (by
      refine List.forall_mem_cons.2 ⟨⟨hs, exConfVal_typed, exConfVal_ronExact, rfl, blank_newline⟩, ?_⟩
      exact List.forall_mem_cons.2 ⟨⟨hs', exConfVal_typed, exConfVal_ronExact, rfl, blank_newline⟩, by simp⟩)
    (fun h => absurd h exConf_not_enum)
  simpa [itemsText] using this

/-- `enum AB { A, B }`. -/
noncomputable def exAB : Env := lawEnv [.enum [⟨['A'], none, .unit⟩, ⟨['B'], none, .unit⟩]] []

theorem exAB_json : JsonEnvOk exAB := by
  intro i d h
  match i with
  | 0 =>
    simp [exAB, lawEnv] at h
    subst h
    refine ⟨?_, ?_, ?_⟩
    · intro f hf; simp at hf; rcases hf with rfl | rfl <;> (unfold PlainName; decide)
    · simp [Variant.jsonName]
    · intro v hv fs hfs
      simp at hv
      rcases hv with rfl | rfl <;> simp at hfs
  | n + 1 => simp [exAB, lawEnv] at h

theorem exAB_ron : RonEnvOk exAB := by
  intro i d h
  match i with
  | 0 =>
    simp [exAB, lawEnv] at h
    subst h
    refine ⟨?_, ?_, ?_⟩
    · intro f hf; simp at hf
      rcases hf with rfl | rfl <;> exact ronName_of _ _ _ rfl (by decide) (by decide) (by decide) (by decide)
    · simp
    · intro v hv fs hfs
      simp at hv
      rcases hv with rfl | rfl <;> simp at hfs
  | n + 1 => simp [exAB, lawEnv] at h

theorem exAB_distinct : DistinctProg exAB := by
  constructor
  · intro i fs cd nul h
    match i with
    | 0 => simp [exAB, lawEnv] at h
    | n + 1 => simp [exAB, lawEnv] at h
  · intro i vars h
    match i with
    | 0 => simp [exAB, lawEnv] at h; subst h; simp [DistinctVariants]; decide
    | n + 1 => simp [exAB, lawEnv] at h
  · intro i vars h v hv fs hs
    match i with
    | 0 =>
      simp [exAB, lawEnv] at h; subst h
      simp at hv
      rcases hv with rfl | rfl <;> simp at hs
    | n + 1 => simp [exAB, lawEnv] at h

/-- `A`, then `B` (a line each) are read as `B`, `B`. -/
example : DecodesAll (fun n => jsonUntilEof exAB toyFloat n (.named 0) (chars "\"A\"" ++ ['\n'] ++ (chars "\"B\"" ++ ['\n'])))
    [.variant 1 [], .variant 1 []] :=
  C89_json_lines_of_unit_variants_lost (lawEnv_lawful _ _) toyFloat_laws exAB_distinct exAB_json (i := 0) (j := 0) (k := 1) (chk := true)
    rfl rfl rfl rfl rfl (by decide +kernel) (by decide +kernel) blank_newline blank_newline

example : DecodesAll (fun n => ronUntilEof exAB toyFloat n (.named 0) (chars "A" ++ ['\n'] ++ (chars "B" ++ ['\n'])))
    [.variant 1 [], .variant 1 []] :=
  C89_ron_lines_of_unit_variants_lost (lawEnv_lawful _ _) exAB_ron (i := 0) (j := 0) (k := 1) (chk := true)
    rfl rfl rfl rfl rfl (by decide +kernel) (by decide +kernel) blank_newline blank_newline

end NS
