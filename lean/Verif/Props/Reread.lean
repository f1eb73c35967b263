import Verif.Lemmas.RereadRon
import Verif.Lemmas.HoldsMono
import Verif.Props.JsonRound
import Verif.Props.JsonWhole
import Verif.Props.RonRound
import Verif.Props.RonWhole
/-! # Properties C85, C86, C87: what comes out of a text reader, and writing it again -/
namespace NS
variable {env : Env} {fl : FloatOps}

/-! ## Texts have at least as many characters as lexemes -/

theorem numLit_pos {s : List Char} {t : Num} (h : NumLit fl s t) : 1 ≤ s.length := by
  cases h with
  | nat _ h _ _ =>
    have := List.length_pos_iff.2 h
    simp only [List.length_append]; omega
  | neg => simp
  | float _ h _ _ _ _ _ =>
    have := List.length_pos_iff.2 h
    simp only [List.length_append] at this ⊢; omega

theorem jspell_pos {l : Lexeme} {s : List Char} (h : JSpell fl l s) : 1 ≤ s.length := by
  cases h with
  | num h => exact numLit_pos h
  | _ => simp

theorem rspells'_pos {l : Lexeme} {s : List Char} (h : RSpells' fl l s) : 1 ≤ s.length := by
  rcases h with h | ⟨t, _, f, ex, x, rfl, _⟩
  · cases h with
    | num h => exact numLit_pos h
    | word h => obtain ⟨c, r, rfl, _⟩ := h; simp
    | _ => simp
  · simp

theorem jscan_length {ls : List Lexeme} {txt rest : List Char} (h : JScan fl ls txt rest) : ls.length ≤ txt.length := by
  induction h with
  | nil => simp
  | cons _ hs _ _ ih =>
    have := jspell_pos hs
    simp only [List.length_cons, List.length_append]; omega

theorem rscan_length {ls : List Lexeme} {txt rest : List Char} (h : RScan fl ls txt rest) : ls.length ≤ txt.length := by
  induction h with
  | nil => simp
  | cons _ hs _ _ ih =>
    have := rspells'_pos hs
    simp only [List.length_cons, List.length_append]; omega

theorem jbegins_length {ls : List Lexeme} {txt : List Char} (h : JBegins fl ls txt) : ls.length ≤ txt.length := by
  rcases h with ⟨_, h, _⟩ | ⟨l, _, h, _⟩
  · exact jscan_length h
  · have := jscan_length h
    simp only [List.length_append, List.length_singleton] at this; omega

theorem rbegins_length {ls : List Lexeme} {txt : List Char} (h : RBegins fl ls txt) : ls.length ≤ txt.length := by
  rcases h with ⟨_, h, _⟩ | ⟨l, _, h, _⟩
  · exact rscan_length h
  · have := rscan_length h
    simp only [List.length_append, List.length_singleton] at this; omega

theorem text_fits {n : Nat} (h : n ≤ isizeMax) : n ≤ u64Max := by unfold isizeMax at h; unfold u64Max; omega

/-! ## C85 -/

/-- **C85**: whatever `deserialize_json` returns for a text (of a length a `str` can have) is a value of the
type: integers in range, fewer than a billion nanoseconds, sets and maps without repeated keys and in order,
arrays of the right length, variants that exist. -/
theorem C85_json_read_typed (hfl : FloatLaws fl) (hk : LawfulKeys env) (hd : DistinctProg env) (hs : SaneText env) {t : Ty}
    {txt : List Char} (hl : txt.length ≤ isizeMax) {n : Nat} {v : Val} {s : PSt}
    (h : deserializeJson env fl n t txt = .ok v s) : HasTy env.unlimited t v := by
  rcases C66_json_reads_only hfl hk hd h with ⟨ls, hb, h⟩ | ⟨a, b, _, _, h⟩
  · exact jsays_typed hk hs h (Nat.le_trans (jbegins_length hb) (text_fits hl))
  · exact strPair_typed hs h

/-- **C85**: the same for `deserialize_ron`. -/
theorem C85_ron_read_typed (hfl : FloatLaws fl) (hk : LawfulKeys env) (hd : DistinctProg env) (hs : SaneText env) {t : Ty}
    {txt : List Char} (hl : txt.length ≤ isizeMax) {n : Nat} {v : Val} {s : PSt}
    (h : deserializeRon env fl n t txt = .ok v s) : HasTy env.unlimited t v := by
  rcases C64_ron_reads_only hfl hk hd h with ⟨x, hb, h⟩ | ⟨a, b, _, _, h⟩
  · exact rmeans_typed hk hs h (Nat.le_trans (rbegins_length hb) (text_fits hl))
  · exact wordPair_typed h

/-! ## C86 -/

theorem nullForm_unlimited {t : Ty} {v : Val} (h : NullForm env.unlimited t v) : NullForm env t v := by
  induction h with
  | unit => exact .unit
  | none => exact .none
  | past h => exact .past h
  | some _ ih => exact .some ih
  | box _ ih => exact .box ih
  | transparent h _ ih => exact .transparent h ih
  | proxied h _ ih => exact .proxied h ih

theorem noneForm_unlimited {t : Ty} {v : Val} (h : NoneForm env.unlimited t v) : NoneForm env t v := by
  induction h with
  | none => exact .none
  | past h => exact .past h
  | variant h h' h'' => exact .variant h h' h''
  | some _ ih => exact .some ih
  | box _ ih => exact .box ih
  | proxied h _ ih => exact .proxied h ih

theorem jsonExact_unlimited {t : Ty} {v : Val} (h : JsonExact env t v) : JsonExact env.unlimited t v := by
  unfold JsonExact
  rw [holds_unlimited]
  exact Holds.mono (fun t v h => ⟨h.1, h.2.1, h.2.2.1, h.2.2.2.1, fun t' w' e1 e2 hn => h.2.2.2.2 t' w' e1 e2 (nullForm_unlimited hn)⟩) v t h

theorem ronExact_unlimited {t : Ty} {v : Val} (h : RonExact env t v) : RonExact env.unlimited t v := by
  unfold RonExact
  rw [holds_unlimited]
  exact Holds.mono (fun t v h => ⟨h.1, h.2.1, h.2.2.1, h.2.2.2.1,
    fun t' w' e1 e2 hn => h.2.2.2.2.1 t' w' e1 e2 (noneForm_unlimited hn), h.2.2.2.2.2⟩) v t h

theorem skipEq_refl_json {t : Ty} {v : Val} {chk : Bool} {txt : List Char} (hk : LawfulKeys env) (hfl : FloatLaws fl) (hE : JsonEnvOk env)
    (hT : HasTy env.unlimited t v) (hX : JsonExact env t v) (h : serializeJson env fl chk t v = some txt) :
    Decodes (fun n => deserializeJson env fl n t txt) v := by
  unfold serializeJson at h
  split at h
  · cases h
  · injection h with h
    subst h
    have := json_roundtrip (lawful_unlimited hk) hfl (show JsonEnvOk env.unlimited from fun i d h => hE i d h) hT
      ((jsonExact_unlimited hX).text hfl)
    rw [serJson_unlimited] at this
    have e : ∀ n txt, deserializeJson env.unlimited fl n t txt = deserializeJson env fl n t txt := by
      intro n txt
      unfold deserializeJson
      rw [deJson_unlimited]
    simpa only [e] using this

theorem skipEq_refl_ron {t : Ty} {v : Val} {chk : Bool} {txt : List Char} (hk : LawfulKeys env) (hfl : FloatLaws fl) (hE : RonEnvOk env)
    (hT : HasTy env.unlimited t v) (hX : RonExact env t v) (h : serializeRon env fl chk t v = some txt) :
    Decodes (fun n => deserializeRon env fl n t txt) v := by
  unfold serializeRon at h
  split at h
  · cases h
  · injection h with h
    subst h
    have hE' : RonEnvOk env.unlimited := fun i d h => hE i d h
    have := ron_round (lawful_unlimited hk) hfl hE' hT ((ronExact_unlimited hX).text hfl hE')
    rw [serRon_unlimited] at this
    have e : ∀ n txt, deserializeRon env.unlimited fl n t txt = deserializeRon env fl n t txt := by
      intro n txt
      unfold deserializeRon
      rw [deRon_unlimited]
    simpa only [e] using this

/-- **C86**: a value that was read from any text, and whose floats are finite, is written as a text from which
it is read again.  (So loading and saving loses nothing, and saving a second time gives the same text.) -/
theorem C86_json_read_write_read (hfl : FloatLaws fl) (hk : LawfulKeys env) (hd : DistinctProg env) (hE : JsonEnvOk env)
    (hs : JsonSaneText env) {t : Ty} {txt : List Char} (hl : txt.length ≤ isizeMax) {n : Nat} {v : Val} {s : PSt}
    (h : deserializeJson env fl n t txt = .ok v s) (hf : v.floatsFinite) {chk : Bool} {txt' : List Char}
    (hw : serializeJson env fl chk t v = some txt') :
    Decodes (fun n => deserializeJson env fl n t txt') v := by
  refine skipEq_refl_json hk hfl hE (C85_json_read_typed hfl hk hd hs.toSaneText hl h) ?_ hw
  rcases C66_json_reads_only hfl hk hd h with ⟨ls, hb, h⟩ | ⟨a, b, _, _, h⟩
  · exact jsays_exact hk hE hs h (Nat.le_trans (jbegins_length hb) (text_fits hl)) hf
  · exact strPair_exact hs h hf

/-- **C86**: the same for RON.  (No enum variant may be called `None`: `C86_ron_pair_none`.) -/
theorem C86_ron_read_write_read (hfl : FloatLaws fl) (hk : LawfulKeys env) (hd : DistinctProg env) (hE : RonEnvOk env)
    (hs : RonSaneText env)
    (hN : ∀ (i : Nat) vars, env.defs[i]? = some (.enum vars) → ∀ v ∈ vars, v.name ≠ ['N', 'o', 'n', 'e'])
    {t : Ty} {txt : List Char} (hl : txt.length ≤ isizeMax) {n : Nat} {v : Val} {s : PSt}
    (h : deserializeRon env fl n t txt = .ok v s) (hf : v.floatsFinite) {chk : Bool} {txt' : List Char}
    (hw : serializeRon env fl chk t v = some txt') :
    Decodes (fun n => deserializeRon env fl n t txt') v := by
  refine skipEq_refl_ron hk hfl hE (C85_ron_read_typed hfl hk hd hs.toSaneText hl h) ?_ hw
  rcases C64_ron_reads_only hfl hk hd h with ⟨x, hb, h⟩ | ⟨a, b, _, _, h⟩
  · exact rmeans_exact hk hE hs h hf
  · exact wordPair_exact' hN h

/-- **C86** (why variants called `None` are excluded): `A None` read as an `Option` of
`enum N { None, A }` gives `Some(N::None)` (two words in a row: C64), which is written as `None` and then
read as `None`. -/
theorem C86_ron_pair_none :
    Decodes (fun n => deserializeRon badRonEnv toyFloat n (.option (.named 0)) (chars "A None")) (.some (.variant 0 [])) ∧
    serializeRon badRonEnv toyFloat true (.option (.named 0)) (.some (.variant 0 [])) = some (chars "None") ∧
    Decodes (fun n => deserializeRon badRonEnv toyFloat n (.option (.named 0)) (chars "None")) .none :=
  ⟨ron_ok 9 _ (by decide +kernel), by decide +kernel, ron_ok 9 _ (by decide +kernel)⟩

/-! ## C87 -/

/-- **C87**: values with the same JSON text are the same, up to skipped fields (`v'` and `w'` are `v` and `w`
with the skipped fields at their defaults). -/
theorem C87_json_injective (hk : LawfulKeys env) (hfl : FloatLaws fl) (hE : JsonEnvOk env) {t : Ty} {v v' w w' : Val}
    (hv : SkipEq env false t v v') (hvT : HasTy env t v') (hvX : JsonExact env t v')
    (hw : SkipEq env false t w w') (hwT : HasTy env t w') (hwX : JsonExact env t w') {chk chk' : Bool} {txt : List Char}
    (h : serializeJson env fl chk t v = some txt) (h' : serializeJson env fl chk' t w = some txt) : v' = w' :=
  Decodes.unique (C21_json_roundtrip hk hfl hE hv hvT hvX h) (C21_json_roundtrip hk hfl hE hw hwT hwX h')

/-- **C87**: the same for RON. -/
theorem C87_ron_injective (hk : LawfulKeys env) (hfl : FloatLaws fl) (hE : RonEnvOk env) {t : Ty} {v v' w w' : Val}
    (hv : SkipEq env false t v v') (hvT : HasTy env t v') (hvX : RonExact env t v')
    (hw : SkipEq env false t w w') (hwT : HasTy env t w') (hwX : RonExact env t w') {chk chk' : Bool} {txt : List Char}
    (h : serializeRon env fl chk t v = some txt) (h' : serializeRon env fl chk' t w = some txt) : v' = w' :=
  Decodes.unique (C40_ron_roundtrip hk hfl hE hv hvT hvX h) (C40_ron_roundtrip hk hfl hE hw hwT hwX h')

/-! ## Examples -/

theorem exJEnv_field {cd : Bool} {f : Field} (h : FieldOf exJEnv cd f) (ha : f.mayBeAbsent cd) :
    (f.optProxy = false) ∧ HasTy exJEnv.unlimited f.ty f.absentValue ∧
    (f.skip = false → JsonExact exJEnv f.ty f.absentValue ∧ RonExact exJEnv f.ty f.absentValue) := by
  rcases h with ⟨i, fs, nul, hd, hf⟩ | ⟨rfl, i, vars, v, fs, hd, hv, hs, hf⟩
  · simp only [exJEnv_defs] at hd
    match i with
    | 0 =>
      simp [exNode] at hd; obtain ⟨rfl, rfl, _⟩ := hd
      simp only [List.mem_cons, List.not_mem_nil, or_false] at hf
      rcases hf with rfl | rfl | rfl
      · simp [Field.mayBeAbsent] at ha
      · simp [Field.absentValue, HasTy]
      · simp [Field.absentValue, HasTy, JsonExact, RonExact, Holds, JsonNodeOk, RonNodeOk]
    | 1 => simp [exEnum] at hd
    | 2 => simp [exMeters] at hd
    | 3 =>
      simp [exConf] at hd; obtain ⟨rfl, rfl, _⟩ := hd
      simp only [List.mem_cons, List.not_mem_nil, or_false] at hf
      rcases hf with rfl | rfl | rfl | rfl | rfl
      · simp [Field.mayBeAbsent] at ha
      · simp [Field.absentValue, HasTy, JsonExact, RonExact, Holds, JsonNodeOk, RonNodeOk, IntKind.textual, IntKind.inRange, IntKind.lo, IntKind.hi, IntKind.signed, IntKind.bytes]
      · simp [Field.absentValue, HasTy, JsonExact, RonExact, Holds, JsonNodeOk, RonNodeOk]
      · simp [Field.absentValue, HasTy, IntKind.inRange, IntKind.lo, IntKind.hi, IntKind.signed, IntKind.bytes]
      · simp [Field.mayBeAbsent] at ha
    | 4 => simp [exEmpty] at hd; obtain ⟨rfl, rfl, _⟩ := hd; simp at hf
    | n + 5 => simp at hd
  · simp only [exJEnv_defs] at hd
    match i with
    | 0 => simp [exNode] at hd
    | 1 =>
      simp [exEnum] at hd; subst hd
      simp only [List.mem_cons, List.not_mem_nil, or_false] at hv
      rcases hv with rfl | rfl | rfl <;> simp at hs
      subst hs
      simp only [List.mem_cons, List.not_mem_nil, or_false] at hf
      rcases hf with rfl | rfl <;> simp [Field.mayBeAbsent] at ha
    | 2 => simp [exMeters] at hd
    | 3 => simp [exConf] at hd
    | 4 => simp [exEmpty] at hd
    | n + 5 => simp at hd

theorem exJEnv_noProxy {cd : Bool} {f : Field} (h : FieldOf exJEnv cd f) : f.optProxy = false := by
  rcases h with ⟨i, fs, nul, hd, hf⟩ | ⟨rfl, i, vars, v, fs, hd, hv, hs, hf⟩
  · simp only [exJEnv_defs] at hd
    match i with
    | 0 =>
      simp [exNode] at hd; obtain ⟨rfl, rfl, _⟩ := hd
      simp only [List.mem_cons, List.not_mem_nil, or_false] at hf
      rcases hf with rfl | rfl | rfl <;> rfl
    | 1 => simp [exEnum] at hd
    | 2 => simp [exMeters] at hd
    | 3 =>
      simp [exConf] at hd; obtain ⟨rfl, rfl, _⟩ := hd
      simp only [List.mem_cons, List.not_mem_nil, or_false] at hf
      rcases hf with rfl | rfl | rfl | rfl | rfl <;> rfl
    | 4 => simp [exEmpty] at hd; obtain ⟨rfl, rfl, _⟩ := hd; simp at hf
    | n + 5 => simp at hd
  · simp only [exJEnv_defs] at hd
    match i with
    | 0 => simp [exNode] at hd
    | 1 =>
      simp [exEnum] at hd; subst hd
      simp only [List.mem_cons, List.not_mem_nil, or_false] at hv
      rcases hv with rfl | rfl | rfl <;> simp at hs
      subst hs
      simp only [List.mem_cons, List.not_mem_nil, or_false] at hf
      rcases hf with rfl | rfl <;> rfl
    | 2 => simp [exMeters] at hd
    | 3 => simp [exConf] at hd
    | 4 => simp [exEmpty] at hd
    | n + 5 => simp at hd

theorem exJEnv_proxy {i : Nat} {px : Proxy} (h : exJEnv.proxies[i]? = some px) (p : Val) : px.into (px.back p) = p := by
  match i with
  | 0 => simp [exJEnv, lawEnv] at h; subst h; rfl
  | n + 1 => simp [exJEnv, lawEnv] at h

theorem exJEnv_sane : SaneText exJEnv :=
  ⟨fun _ _ h ha => (exJEnv_field h ha).2.1, fun _ _ p h hp => by rw [exJEnv_proxy h]; exact ⟨hp, rfl⟩⟩

theorem exJEnv_jsonSane : JsonSaneText exJEnv :=
  { exJEnv_sane with
    absentExact := fun _ _ h ha hs _ => ((exJEnv_field h ha).2.2 hs).1
    proxiesExact := fun _ _ p h hp => by rw [exJEnv_proxy h]; exact ⟨id, id, id⟩
    optProxy := fun _ _ h ho => by rw [exJEnv_noProxy h] at ho; cases ho }

theorem exJEnv_ronSane : RonSaneText exJEnv :=
  { exJEnv_sane with absentExact := fun _ _ h ha hs _ => ((exJEnv_field h ha).2.2 hs).2 }

theorem exJEnv_noNone (i : Nat) (vars : List Variant) (h : exJEnv.defs[i]? = some (.enum vars)) :
    ∀ v ∈ vars, v.name ≠ ['N', 'o', 'n', 'e'] := by
  simp only [exJEnv_defs] at h
  match i with
  | 0 => simp [exNode] at h
  | 1 => simp [exEnum] at h; subst h; simp; decide
  | 2 => simp [exMeters] at h
  | 3 => simp [exConf] at h
  | 4 => simp [exEmpty] at h
  | n + 5 => simp at h

/-- `n` twice, an unknown member, a missing `retries`, a comment. -/
def exLoose : List Char := chars "{ \"ratio\" : 5.0 , \"n\":\"x\",\"zz\":[1,{\"q\":[]}],/* c */ \"n\":\"b\" ,}"
/-- What it is read as. -/
def exLooseVal : Val := .struct [.str ['b'], .int 3, .none, .int 0, .f64 5]

theorem exLoose_reads : ∃ n s, deserializeJson exJEnv toyFloat n (.named 3) exLoose = .ok exLooseVal s := by
  obtain ⟨s, h⟩ := Out.isOk_spec (r := deserializeJson exJEnv toyFloat 40 (.named 3) exLoose) (v := exLooseVal) (by decide +kernel)
  exact ⟨40, s, h⟩

/-- C85, C86: it is a value of its type; it is written as `{"n":"b","retries":3,"ratio":5.0}`, and that text
is read as the same value. -/
example : HasTy exJEnv.unlimited (.named 3) exLooseVal ∧
    serializeJson exJEnv toyFloat true (.named 3) exLooseVal = some (chars "{\"n\":\"b\",\"retries\":3,\"ratio\":5.0}") ∧
    Decodes (fun n => deserializeJson exJEnv toyFloat n (.named 3) (chars "{\"n\":\"b\",\"retries\":3,\"ratio\":5.0}")) exLooseVal := by
  obtain ⟨n, s, h⟩ := exLoose_reads
  have hl : exLoose.length ≤ isizeMax := by decide +kernel
  have hw : serializeJson exJEnv toyFloat true (.named 3) exLooseVal = some (chars "{\"n\":\"b\",\"retries\":3,\"ratio\":5.0}") := by
    decide +kernel
  exact ⟨C85_json_read_typed toyFloat_laws exJEnv_lawful exJEnv_distinct exJEnv_sane hl h, hw,
    C86_json_read_write_read toyFloat_laws exJEnv_lawful exJEnv_distinct exJEnv_ok exJEnv_jsonSane hl h
      (by simp only [exLooseVal, Val.floatsFinite, floatsFiniteAll]; exact ⟨trivial, trivial, trivial, trivial, by decide, trivial⟩) hw⟩

/-- The same in RON. -/
def exLooseRon : List Char := chars "( ratio : 5.0 , n:\"x\", /* c */ n:\"b\" ,) 17 }"

example : HasTy exJEnv.unlimited (.named 3) exLooseVal ∧
    Decodes (fun n => deserializeRon exJEnv toyFloat n (.named 3) (serRon exJEnv toyFloat (.named 3) exLooseVal)) exLooseVal := by
  obtain ⟨s, h⟩ := Out.isOk_spec (r := deserializeRon exJEnv toyFloat 40 (.named 3) exLooseRon) (v := exLooseVal) (by decide +kernel)
  have hl : exLooseRon.length ≤ isizeMax := by decide +kernel
  exact ⟨C85_ron_read_typed toyFloat_laws exJEnv_lawful exJEnv_distinct exJEnv_sane hl h,
    C86_ron_read_write_read toyFloat_laws exJEnv_lawful exJEnv_distinct exJEnv_ron exJEnv_ronSane exJEnv_noNone hl h
      (by simp only [exLooseVal, Val.floatsFinite, floatsFiniteAll]; exact ⟨trivial, trivial, trivial, trivial, by decide, trivial⟩)
      (chk := false) rfl⟩

theorem exConfVal_typed : HasTy exJEnv (.named 3) exConfVal := by
  simp [HasTy, exConfVal, exConf, FieldsTy, exMeters, TysTy, IntKind.inRange, IntKind.lo, IntKind.hi, IntKind.signed, IntKind.bytes]
theorem exConfVal_exact : JsonExact exJEnv (.named 3) exConfVal := by
  simp [JsonExact, Holds, exConfVal, exConf, HoldsFields, HoldsTys, exMeters, JsonNodeOk, IntKind.textual, Field.absent, finite64]
  intro h
  cases h with
  | transparent hd hv => simp [exMeters] at hd; subst hd; cases hv
theorem exLooseVal_typed : HasTy exJEnv (.named 3) exLooseVal := by
  simp [HasTy, exLooseVal, exConf, FieldsTy, IntKind.inRange, IntKind.lo, IntKind.hi, IntKind.signed, IntKind.bytes]
theorem exLooseVal_exact : JsonExact exJEnv (.named 3) exLooseVal := by
  simp [JsonExact, Holds, exLooseVal, exConf, HoldsFields, JsonNodeOk, IntKind.textual, Field.absent, finite64]

/-- C87: two `Conf`s have different texts. -/
example : serJson exJEnv toyFloat (.named 3) exConfVal ≠ serJson exJEnv toyFloat (.named 3) exLooseVal := by
  intro h
  have := C87_json_injective exJEnv_lawful toyFloat_laws exJEnv_ok (t := .named 3) (v := exConfVal) (w := exLooseVal)
    (by simp [SkipEq, exConfVal, exConf, SkipEqFields, SkipEqTys, exMeters]) exConfVal_typed exConfVal_exact
    (by simp [SkipEq, exLooseVal, exConf, SkipEqFields]) exLooseVal_typed exLooseVal_exact
    (chk := false) (chk' := false) (txt := serJson exJEnv toyFloat (.named 3) exConfVal) rfl (by rw [h]; rfl)
  cases this

end NS
