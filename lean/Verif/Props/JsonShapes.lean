import Verif.Lemmas.JsonEnum
import Verif.Props.JsonObjects
/-! # Properties C34 and C37: enums, arrays and tuples in JSON -/
namespace NS
variable {env : Env} {fl : FloatOps}

/-! ## C37 -/

theorem ItemsRead.lengths {ts Js vs} (h : ItemsRead env fl ts Js vs) : Js.length = ts.length ∧ vs.length = ts.length := by
  induction h with
  | nil => exact ⟨rfl, rfl⟩
  | cons _ _ ih => simp [ih]

/-- **C37**: `[T; N]` and tuples accept exactly the arrays (with or without trailing comma) that have
the right number of items, each of the right type, and yield the items in order. -/
theorem C37_json_fixed_arity (hw : ProgWf env) (hp : Productive env) {T : Ty} (hT : TyWf env T) {ts : List Ty}
    (hA : FixedArity T ts) {J : JTree} {txt} (hx : JText fl J txt) (v : Val) :
    Decodes (fun n => deserializeJson env fl n T txt) v ↔
      ∃ xs tr vs, J = .arr xs tr ∧ v = .seq vs ∧ xs.length = ts.length ∧ ItemsRead env fl ts xs vs := by
  rw [den_decodes hw hp hT hx, den_fixed hw hp hT hA, Dec.bind_eq_ok]
  constructor
  · rintro ⟨vs, h1, h2⟩
    injection h2 with h2
    obtain ⟨xs, tr, h3, h4⟩ := (decTuple_iff hw hp ts (fixed_wf hT hA) J hx.spellable vs).1 h1
    exact ⟨xs, tr, vs, h3, h2.symm, h4.lengths.1, h4⟩
  · rintro ⟨xs, tr, vs, h1, rfl, _, h2⟩
    exact ⟨vs, (decTuple_iff hw hp ts (fixed_wf hT hA) J hx.spellable vs).2 ⟨xs, tr, h1, h2⟩, rfl⟩

/-- **C37**: an array with another number of items (each readable as far as there is a type for it)
is an error. -/
theorem C37_json_wrong_length (hw : ProgWf env) (hp : Productive env) {T : Ty} (hT : TyWf env T) {ts : List Ty}
    (hA : FixedArity T ts) {xs : List JTree} {tr : Bool} {txt} (hx : JText fl (.arr xs tr) txt)
    (hr : ∀ (i : Nat) t x, ts[i]? = some t → xs[i]? = some x → ∃ v, ReadsAs env fl t x v)
    (hne : xs.length ≠ ts.length) : Rejects (fun n => deserializeJson env fl n T txt) := by
  rw [den_rejects hw hp hT hx, den_fixed hw hp hT hA]
  simp only [decTuple]
  rw [decTys_wrong hw hp ts (fixed_wf hT hA) xs ?_ hne]
  · rfl
  · intro i t x h1 h2
    obtain ⟨v, hv⟩ := hr i t x h1 h2
    exact ⟨v, (readsAs_iff hw hp (fixed_wf hT hA t (List.mem_of_getElem? h1))
      (hx.spellable.arr (List.mem_of_getElem? h2))).1 hv⟩

/-- **C37**: anything but an array is an error. -/
theorem C37_json_not_array (hw : ProgWf env) (hp : Productive env) {T : Ty} (hT : TyWf env T) {ts : List Ty}
    (hA : FixedArity T ts) {J : JTree} {txt} (hx : JText fl J txt) (hJ : ∀ xs tr, J ≠ .arr xs tr) :
    Rejects (fun n => deserializeJson env fl n T txt) := by
  rw [den_rejects hw hp hT hx, den_fixed hw hp hT hA]
  cases J with
  | arr xs tr => exact absurd rfl (hJ xs tr)
  | _ => rfl

/-- C37: `[ 1, true, ]` as `(u8, bool)`. -/
example : Decodes (fun n => deserializeJson exJEnv toyFloat n (.pair (.int .u8) .bool) (chars " [ 1 , true , ]"))
    (.seq [.int 1, .bool true]) := by
  have hx : JText toyFloat (.arr [.num (.nat 1), .bool true] true) (chars " [ 1 , true , ]") := by
    refine jtext_spaced [.punct .blockOpen, .num (.nat 1), .punct .comma, .word (chars "true"), .punct .comma, .punct .blockClose] ?_ (by decide)
    simp [JTree.lexemes, commaLexemes, chars]
  refine (C37_json_fixed_arity exJEnv_wf exJEnv_productive (by simp [TyWf, IntKind.textual]) (.pair ..) hx _).2
    ⟨_, _, _, rfl, rfl, rfl, .cons ?_ (.cons ?_ .nil)⟩
  · exact ⟨chars " 1", jtext_spaced [.num (.nat 1)] (by simp [JTree.lexemes]) (by decide), json_ok 5 _ (by decide +kernel)⟩
  · exact ⟨chars " true", jtext_spaced [.word (chars "true")] (by simp [JTree.lexemes, chars]) (by decide), json_ok 5 _ (by decide +kernel)⟩

/-- C37: `[ 1 ]` and `[ 1, 2, 3 ]` as `[u8; 2]`. -/
example : Rejects (fun n => deserializeJson exJEnv toyFloat n (.array (.int .u8) 2) (chars " [ 1 ]")) ∧
    Rejects (fun n => deserializeJson exJEnv toyFloat n (.array (.int .u8) 2) (chars " [ 1 , 2 , 3 ]")) := by
  have hn : ∀ n : Nat, n ∈ [1, 2, 3] → ReadsAs exJEnv toyFloat (.int .u8) (.num (.nat n)) (.int n) := by
    intro n hn
    simp at hn
    rcases hn with rfl | rfl | rfl
    · exact ⟨chars " 1", jtext_spaced [.num (.nat 1)] (by simp [JTree.lexemes]) (by decide), json_ok 5 _ (by decide +kernel)⟩
    · exact ⟨chars " 2", jtext_spaced [.num (.nat 2)] (by simp [JTree.lexemes]) (by decide), json_ok 5 _ (by decide +kernel)⟩
    · exact ⟨chars " 3", jtext_spaced [.num (.nat 3)] (by simp [JTree.lexemes]) (by decide), json_ok 5 _ (by decide +kernel)⟩
  constructor
  · refine C37_json_wrong_length exJEnv_wf exJEnv_productive (by simp [TyWf, IntKind.textual]) (.array ..)
      (xs := [.num (.nat 1)]) (tr := false)
      (by
        refine jtext_spaced [.punct .blockOpen, .num (.nat 1), .punct .blockClose] ?_ (by decide)
        simp [JTree.lexemes, commaLexemes]) ?_ (by simp)
    intro i t x h1 h2
    match i with
    | 0 => simp at h1 h2; subst h1 h2; exact ⟨_, hn 1 (by simp)⟩
    | n + 1 => simp at h2
  · refine C37_json_wrong_length exJEnv_wf exJEnv_productive (by simp [TyWf, IntKind.textual]) (.array ..)
      (xs := [.num (.nat 1), .num (.nat 2), .num (.nat 3)]) (tr := false)
      (by
        refine jtext_spaced [.punct .blockOpen, .num (.nat 1), .punct .comma, .num (.nat 2), .punct .comma, .num (.nat 3),
          .punct .blockClose] ?_ (by decide)
        simp [JTree.lexemes, commaLexemes]) ?_ (by simp)
    intro i t x h1 h2
    match i with
    | 0 => simp at h1 h2; subst h1 h2; exact ⟨_, hn 1 (by simp)⟩
    | 1 => simp at h1 h2; subst h1 h2; exact ⟨_, hn 2 (by simp)⟩
    | n + 2 => simp [List.replicate] at h1

/-! ## C34 -/

/-- **C34** (reading): a derived enum is read from exactly the representations of `EnumReads`: the
name of a unit variant as a string, or an object with one member for any other variant. -/
theorem C34_json_enum_accepts (hw : ProgWf env) (hp : Productive env) {i : Nat} {vars}
    (hd : env.defs[i]? = some (.enum vars)) (hdv : DistinctVariants vars)
    (hdn : ∀ v ∈ vars, ∀ fs, v.shape = .named fs → DistinctNames fs) {J : JTree}
    {txt} (hx : JText fl J txt) (v : Val) :
    Decodes (fun n => deserializeJson env fl n (.named i) txt) v ↔ EnumReads env fl vars J v :=
  enum_iff hw hp hd hdv hdn hx v

theorem JsonFields.distinctNames {fs : List Field} (h : JsonVarFieldsOk fs) : DistinctNames fs := by
  refine h.distinct.imp_of_mem fun {f g} hf hg h1 _ _ => ?_
  unfold Field.jsonName
  rw [h.noRename f hf, h.noRename g hg]
  exact h1

/-- **C34** (writing): what a value of a derived enum is written as is such a representation of it. -/
theorem C34_json_enum_written (hw : ProgWf env) (hp : Productive env) (hk : LawfulKeys env) (hfl : FloatLaws fl)
    (hE : JsonEnvOk env) {i : Nat} {vars} (hd : env.defs[i]? = some (.enum vars)) {v : Val}
    (hT : HasTy env (.named i) v) (hX : JsonExact env (.named i) v) {chk txt}
    (h : serializeJson env fl chk (.named i) v = some txt) :
    ∃ J, JText fl J txt ∧ EnumReads env fl vars J v := by
  unfold serializeJson at h
  split at h
  · cases h
  · injection h with h
    subst h
    obtain ⟨J, h1, _, h3⟩ := jround hk hfl hE v _ hT (hX.text hfl)
    refine ⟨J, h1.text, ?_⟩
    have hok := hE i _ hd
    refine (enum_iff hw hp hd ?_ ?_ h1.text v).1 ((den_decodes hw hp (t := .named i) (def_lt hd) h1.text).2 ?_)
    · exact hok.2.1
    · intro w hw fs hs; exact JsonFields.distinctNames (hok.2.2 w hw fs hs)
    · exact den_eq hw hp (t := .named i) (show TyWf env (.named i) from def_lt hd) ⟨sizeOf v, fun n hn => h3 _ (by omega)⟩

/-- **C34**: a string that is not the name of a unit variant is `NoSuchEnum` with that name (in an
enum that has unit variants). -/
theorem C34_json_unknown_unit {i : Nat} {vars} (hd : env.defs[i]? = some (.enum vars))
    (hu : ∃ v ∈ vars, v.shape = .unit) {name : List Char} (hno : ∀ v ∈ vars, v.shape = .unit → v.jsonName ≠ name)
    {txt} (hx : JText fl (.str name) txt) :
    RejectsWith (fun n => deserializeJson env fl n (.named i) txt) (.noSuchEnum name) := by
  obtain ⟨s0, e0, h0⟩ := deserializeJson_start hx
  simp only [JTree.lexemes, List.cons_append, List.nil_append] at h0
  have hsb : s0.strbuf = name := At'.sb h0 name rfl
  have ht : s0.tok = .str := h0.tok
  obtain ⟨s1, e1, h1, hb, -⟩ := h0.next
  have hb : s1.strbuf = name := by rw [hb]; simpa [Lexeme.sb] using hsb
  have hany : vars.any (fun v => v.isUnit) = true := by
    obtain ⟨v, hv, hs⟩ := hu
    exact List.any_eq_true.2 ⟨v, hv, (Variant.isUnit_iff v).2 hs⟩
  have hf : findVariant vars true name = none := by
    unfold findVariant
    rw [List.findIdx?_eq_none_iff]
    intro v hv
    rw [Bool.and_eq_false_iff]
    by_cases hs : v.shape = .unit
    · right; exact beq_eq_false_iff_ne.2 (hno v hv hs)
    · left
      rw [← Variant.isUnit_iff] at hs
      simpa using hs
  refine ⟨1, fun n hn => ⟨s1.cur.line, s1.cur.col, s1, ?_⟩⟩
  obtain ⟨n, rfl⟩ : ∃ k, n = k + 1 := ⟨n - 1, by omega⟩
  show (jNext fl >>= fun _ => deJson env fl (n + 1) (.named i)) (initSt jcol txt) = _
  rw [M.bind_ok e0]
  simp only [deJson, hd]
  let innerU : PSt → PM Val := fun s => match findVariant vars true s.strbuf with
    | some j => pure (.variant j [])
    | none => errEnum s.strbuf
  have hr : deJsonEnum (jNext fl) n (deJson env fl n) vars s0 =
      (expectTok (jNext fl) .str "String" >>= fun _ => M.get >>= fun s => innerU s) s0 := by
    show (if s0.tok = .curlyOpen ∧ vars.any (fun v => !v.isUnit) then _
      else if s0.tok = .str ∧ vars.any (fun v => v.isUnit) then
        (expectTok (jNext fl) .str "String" >>= fun _ => M.get >>= fun s => innerU s)
      else errToken "String or {" : PM Val) s0 = _
    rw [if_neg (by rw [ht]; simp), if_pos ⟨ht, hany⟩]
  rw [hr, M.bind_ok ((expectTok_ok ht).trans e1)]
  show innerU s1 s1 = _
  simp only [innerU, hb, hf]
  rfl

/-- **C34**: an object whose first key is not the name of a non-unit variant, with a value that is not
a string, is `NoSuchEnum` with that name (in an enum that has non-unit variants). -/
theorem C34_json_unknown_variant {i : Nat} {vars} (hd : env.defs[i]? = some (.enum vars))
    (hu : ∃ v ∈ vars, v.shape ≠ .unit) {name : List Char} (hno : ∀ v ∈ vars, v.shape ≠ .unit → v.jsonName ≠ name)
    {K : JTree} (hK : ∀ s, K ≠ .str s) {ms : List (JTree × JTree)} {tr : Bool}
    {txt} (hx : JText fl (.obj ((.str name, K) :: ms) tr) txt) :
    RejectsWith (fun n => deserializeJson env fl n (.named i) txt) (.noSuchEnum name) := by
  obtain ⟨s0, e0, h0⟩ := deserializeJson_start hx
  rw [JTree.lexemes_obj] at h0
  simp only [List.cons_append, List.append_assoc, List.nil_append] at h0
  have ht : s0.tok = .curlyOpen := h0.tok
  obtain ⟨s1, e1, h1⟩ := h0.next' (by simp)
  obtain ⟨sep, e1', e2, _, e5⟩ := commaLexemes_cons tr (JTree.lexemes (.str name) ++ .punct .colon :: K.lexemes)
    (ms.map fun m => m.1.lexemes ++ .punct .colon :: m.2.lexemes) [.punct .curlyClose, .eof]
  rw [List.map_cons, e1'] at h1
  simp only [JTree.lexemes, List.cons_append, List.nil_append] at h1
  have hsb : s1.strbuf = name := At'.sb h1 name rfl
  have ht1 : s1.tok = .str := h1.tok
  obtain ⟨s2, e2', h2, hb2, -⟩ := h1.next
  have hb2 : s2.strbuf = name := by rw [hb2]; simpa [Lexeme.sb] using hsb
  have ht2 : s2.tok = .colon := h2.tok
  obtain ⟨l, ls, el, hl⟩ := K.lexeme_tok
  rw [el] at h2
  obtain ⟨s3, e3, h3, hb3, -⟩ := h2.next
  have hlsb : l.sb = none := by
    cases l with
    | str s => exact absurd (hl.1.1 rfl) (fun ⟨s', h⟩ => hK s' h)
    | _ => rfl
  have hb3 : s3.strbuf = name := by rw [hb3, hlsb]; exact hb2
  have hany : vars.any (fun v => !v.isUnit) = true := by
    obtain ⟨v, hv, hs⟩ := hu
    rw [Ne, ← Variant.isUnit_iff] at hs
    exact List.any_eq_true.2 ⟨v, hv, by simpa using hs⟩
  have hf : findVariant vars false name = none := by
    unfold findVariant
    rw [List.findIdx?_eq_none_iff]
    intro v hv
    rw [Bool.and_eq_false_iff]
    by_cases hs : v.shape = .unit
    · left; rw [(Variant.isUnit_iff v).2 hs]; rfl
    · right; exact beq_eq_false_iff_ne.2 (hno v hv hs)
  refine ⟨1, fun n hn => ⟨s3.cur.line, s3.cur.col, s3, ?_⟩⟩
  obtain ⟨n, rfl⟩ : ∃ k, n = k + 1 := ⟨n - 1, by omega⟩
  show (jNext fl >>= fun _ => deJson env fl (n + 1) (.named i)) (initSt jcol txt) = _
  rw [M.bind_ok e0]
  simp only [deJson, hd]
  let inner : PSt → PM Val := fun s => match findVariant vars false s.strbuf with
    | some j => do
      let vs ← deJsonShape (jNext fl) n (deJson env fl n) (vars.getD j { name := [], shape := .unit }).shape
      curlyClose (jNext fl)
      pure (.variant j vs)
    | none => errEnum s.strbuf
  have hr : deJsonEnum (jNext fl) n (deJson env fl n) vars s0 =
      (curlyOpen (jNext fl) >>= fun _ => expectTok (jNext fl) .str "String" >>= fun _ => colon (jNext fl) >>= fun _ =>
          M.get >>= fun s => inner s) s0 := by
    show (if s0.tok = .curlyOpen ∧ vars.any (fun v => !v.isUnit) then
        (curlyOpen (jNext fl) >>= fun _ => expectTok (jNext fl) .str "String" >>= fun _ => colon (jNext fl) >>= fun _ =>
          M.get >>= fun s => inner s)
      else _ : PM Val) s0 = _
    rw [if_pos ⟨ht, hany⟩]
  have q1 : curlyOpen (jNext fl) s0 = .ok () s1 := (expectTok_ok ht).trans e1
  have q3 : colon (jNext fl) s2 = .ok () s3 := (expectTok_ok ht2).trans e3
  rw [hr, M.bind_ok q1, M.bind_ok ((expectTok_ok ht1).trans e2'), M.bind_ok q3]
  show inner s3 s3 = _
  simp only [inner, hb3, hf]
  rfl

/-- `enum U { A, B, T(u8) }`. -/
def uEnv : Env :=
  { defs := [.enum [{ name := ['A'], shape := .unit }, { name := ['B'], shape := .unit },
      { name := ['T'], shape := .tuple [.int .u8] }]], cmp := fun _ _ => .eq, keyEq := fun _ _ => false }

/-- **C34** (an exception): when another string follows, the string token does not select the variant it names
but the one that the next string names (`"A" "B"` reads as `B`). -/
theorem C34_json_next_string_wins :
    Decodes (fun n => deserializeJson uEnv toyFloat n (.named 0) (chars "\"A\" \"B\"")) (.variant 1 []) :=
  json_ok 20 _ (by decide +kernel)

/-- **C34** (an exception): a string in place of a variant's contents is taken for its name: the error for
`{"Nope":"x"}` names `x`. -/
theorem C34_json_string_contents :
    RejectsWith (fun n => deserializeJson uEnv toyFloat n (.named 0) (chars "{\"Nope\":\"x\"}")) (.noSuchEnum ['x']) :=
  json_err 20 _ (by decide +kernel)

/-- The variants of `exEnum`. -/
def exVariants : List Variant :=
  [ { name := chars "A", shape := .unit },
    { name := chars "B", shape := .tuple [.int .i8, .str] },
    { name := chars "C", shape := .named
        [ { name := chars "n", ty := .named 0 }, { name := chars "t", ty := .time } ] } ]

/-- C34: all conditions of the writing theorem hold for `E::B(-3, "é")` of the example program. -/
example : ∃ J txt, serializeJson exJEnv toyFloat true (.named 1) (.variant 1 [.int (-3), .str [Char.ofNat 233]]) = some txt ∧
    JText toyFloat J txt ∧ EnumReads exJEnv toyFloat
      exVariants J (.variant 1 [.int (-3), .str [Char.ofNat 233]]) := by
  have h : serializeJson exJEnv toyFloat true (.named 1) (.variant 1 [.int (-3), .str [Char.ofNat 233]]) =
      some (serJson exJEnv toyFloat (.named 1) (.variant 1 [.int (-3), .str [Char.ofNat 233]])) := by
    unfold serializeJson
    simp [visitsEmptyArray, exEnum, visitsEmptyTys]
  obtain ⟨J, h1, h2⟩ := C34_json_enum_written exJEnv_wf exJEnv_productive exJEnv_lawful toyFloat_laws exJEnv_ok (i := 1) rfl
    (v := .variant 1 [.int (-3), .str [Char.ofNat 233]]) (by simp [HasTy, TysTy, exEnum, IntKind.inRange]; decide)
    (by simp [JsonExact, Holds, HoldsTys, exEnum, JsonNodeOk, IntKind.textual]) h
  exact ⟨J, _, h, h1, h2⟩

/-- C34: `"Z"` and `{ "Z": [ ] }`. -/
example : RejectsWith (fun n => deserializeJson uEnv toyFloat n (.named 0) (chars " \"Z\"")) (.noSuchEnum ['Z']) ∧
    RejectsWith (fun n => deserializeJson uEnv toyFloat n (.named 0) (chars " { \"Z\" : [ ] }")) (.noSuchEnum ['Z']) := by
  constructor
  · exact C34_json_unknown_unit (i := 0) rfl ⟨_, List.mem_cons_self .., rfl⟩ (by simp [Variant.jsonName])
      (jtext_spaced [.str ['Z']] (by simp [JTree.lexemes]) (by decide))
  · refine C34_json_unknown_variant (i := 0) rfl ⟨{ name := ['T'], shape := .tuple [.int .u8] }, by simp, by simp⟩
      (by simp [Variant.jsonName]) (K := .arr [] false) (by simp) (ms := []) (tr := false) ?_
    refine jtext_spaced [.punct .curlyOpen, .str ['Z'], .punct .colon, .punct .blockOpen, .punct .blockClose, .punct .curlyClose] ?_ (by decide)
    simp [JTree.lexemes, commaLexemes]

end NS
