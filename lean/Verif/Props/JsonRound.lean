import Verif.Lemmas.JsonRoundTrip
import Verif.Lemmas.JsonRun
import Verif.Lemmas.SkipJson
import Verif.Lemmas.EmptyArr
import Verif.Props.ExamplesText
/-! # Properties C21, C29, C30, C35, C38: JSON round trip, skipped and renamed fields, `Option` -/
namespace NS
variable {env : Env} {fl : FloatOps}

/-! ## C21 -/

/-- **C21**: `deserialize_json(serialize_json(v)) == Ok(v')` where `v'` is `v` with skipped fields at
their defaults (`v' = v` if there are none), for every type and every value that JSON represents
exactly. -/
theorem C21_json_roundtrip (hk : LawfulKeys env) (hfl : FloatLaws fl) (hE : JsonEnvOk env) {t : Ty} {v v' : Val}
    (hs : SkipEq env false t v v') (hT : HasTy env t v') (hX : JsonExact env t v') {chk : Bool} {txt : List Char}
    (h : serializeJson env fl chk t v = some txt) :
    Decodes (fun n => deserializeJson env fl n t txt) v' := by
  rw [skipEq_serialize hs] at h
  unfold serializeJson at h
  split at h
  · cases h
  · injection h with h
    subst h
    exact json_roundtrip hk hfl hE hT (hX.text hfl)

theorem exJEnv_ok : JsonEnvOk exJEnv := by
  intro i d h
  simp only [exJEnv_defs] at h
  match i with
  | 0 =>
    simp at h; subst h
    constructor
    · intro f hf _; simp at hf; rcases hf with rfl | rfl | rfl <;> (unfold PlainName; decide)
    · simp [Field.jsonName, chars]
    · simp
    · simp [Field.absent]
  | 1 =>
    simp at h; subst h
    refine ⟨?_, ?_, ?_⟩
    · intro f hf; simp at hf; rcases hf with rfl | rfl | rfl <;> (unfold PlainName; decide)
    · simp [Variant.jsonName, chars]
    · intro v hv fs hfs
      simp at hv
      rcases hv with rfl | rfl | rfl <;> simp at hfs
      subst hfs
      constructor <;> simp [PlainName, chars]
  | 2 => simp at h; subst h; trivial
  | 3 =>
    simp at h; subst h
    constructor
    · intro f hf _; simp at hf; rcases hf with rfl | rfl | rfl | rfl | rfl <;> (unfold PlainName; decide)
    · simp [Field.jsonName, chars]
    · simp
    · simp [Field.absent]
  | 4 => simp at h; subst h; constructor <;> simp
  | n + 5 => simp at h

/-- `Conf { .., cache: 99, .. }`, written and read back, gives `cache: 0`. -/
example : Decodes (fun n => deserializeJson exJEnv toyFloat n (.named 3)
    (serJson exJEnv toyFloat (.named 3)
      (.struct [.str ['a', '"', 'b'], .int 7, .some (.struct [.int 12]), .int 99, .f64 5]))) exConfVal := by
  refine C21_json_roundtrip (v := .struct [.str ['a', '"', 'b'], .int 7, .some (.struct [.int 12]), .int 99, .f64 5])
    exJEnv_lawful toyFloat_laws exJEnv_ok (chk := false) ?_ ?_ ?_ rfl
  · simp [SkipEq, exConfVal, exConf, SkipEqFields, SkipEqTys, exMeters]
  · simp [HasTy, exConfVal, exConf, FieldsTy, exMeters, TysTy, IntKind.inRange, IntKind.lo, IntKind.hi, IntKind.signed,
      IntKind.bytes]
  · simp [JsonExact, Holds, exConfVal, exConf, HoldsFields, HoldsTys, exMeters, JsonNodeOk, IntKind.textual, Field.absent,
      finite64]
    intro h
    cases h with
    | transparent hd hv =>
      simp [exMeters] at hd
      subst hd
      cases hv

/-! ## C29 -/

/-- **C29** (writing): two values that differ only in skipped fields of structs, at any depth, have
the same text (and panic alike).  (A `skip` inside an enum struct variant is ignored when writing:
`C29_json_skip_in_variant_written`.) -/
theorem C29_json_skip_no_influence {t : Ty} {v w : Val} (h : SkipEq env false t v w) (chk : Bool) :
    serializeJson env fl chk t v = serializeJson env fl chk t w := skipEq_serialize h chk

example : serializeJson exJEnv toyFloat true (.vec (.named 0)) (.seq [exNodeVal]) =
    serializeJson exJEnv toyFloat true (.vec (.named 0)) (.seq [exNodeVal']) :=
  C29_json_skip_no_influence (by
    simp [SkipEq, SkipEqAll, exNodeVal, exNodeVal', exNode, SkipEqFields]) true

theorem Placed.sublist {D : Field → JTree → Val → Prop} {fs vs ms os} (h : Placed D fs vs ms os) :
    (ms.map Prod.fst).Sublist ((fs.filter fun f => !f.skip).map fun f => .str (f.rename.getD f.name)) := by
  induction h with
  | nil => simp
  | @skip f fs v vs ms os a _ _ ih =>
    by_cases hs : f.skip = true
    · simpa [hs] using ih
    · simp only [Bool.not_eq_true] at hs
      simp only [List.filter_cons, hs, Bool.not_false, if_true, List.map_cons]
      exact .cons _ ih
  | @put f fs v vs ms os J hs _ _ ih =>
    simp only [List.filter_cons, hs, Bool.not_false, if_true, List.map_cons]
    exact .cons_cons _ ih

theorem Placed.present {D : Field → JTree → Val → Prop} {fs vs ms os} (h : Placed D fs vs ms os) :
    ∀ f ∈ fs, f.skip = false → f.optSyn = false → JTree.str (f.rename.getD f.name) ∈ ms.map Prod.fst := by
  induction h with
  | nil => simp
  | @skip f fs v vs ms os a _ _ ih =>
    intro g hg h1 h2
    rcases List.mem_cons.1 hg with rfl | hg
    · rcases a with a | a <;> simp_all
    · exact ih g hg h1 h2
  | @put f fs v vs ms os J hs _ _ ih =>
    intro g hg h1 h2
    rcases List.mem_cons.1 hg with rfl | hg
    · simp [Field.key]
    · simp only [List.map_cons, List.mem_cons]
      exact .inr (ih g hg h1 h2)

/-- The members of the text of a struct: what they are called and that they are the written fields. -/
theorem struct_members (hk : LawfulKeys env) (hfl : FloatLaws fl) (hE : JsonEnvOk env) {i : Nat} {fs cd nul}
    (hd : env.defs[i]? = some (.struct fs cd nul)) {vs : List Val} (hT : HasTy env (.named i) (.struct vs))
    (hX : JsonExact env (.named i) (.struct vs)) :
    ∃ ms : List (JTree × JTree), JText fl (.obj ms false) (serJson env fl (.named i) (.struct vs)) ∧
      (ms.map Prod.fst).Sublist ((fs.filter fun f => !f.skip).map fun f => .str (f.rename.getD f.name)) ∧
      ∀ f ∈ fs, f.skip = false → f.optSyn = false → JTree.str (f.rename.getD f.name) ∈ ms.map Prod.fst := by
  have hok := hE i _ hd
  simp only [HasTy, hd] at hT
  have hX := hX.text hfl
  simp only [JsonExactT, Holds, hd] at hX
  obtain ⟨ms, os, h1, h2, h3⟩ := fields_round (nul := nul) fs vs (sizeOf vs)
    (fun v hv => ⟨by have := List.sizeOf_lt_of_mem hv; omega, fun t => jround hk hfl hE v t⟩) hT hX.2 hok.plain hok.optProxy hok.omitted
  refine ⟨ms, ?_, ?_, ?_⟩
  · simp only [serJson, hd]
    exact (Spells.obj h1 h2).text
  · exact h3.sublist
  · exact h3.present

/-- **C29** (writing): the output of a derived struct is a JSON object whose keys are, in order, among
the names of the fields without `skip`. -/
theorem C29_json_skip_not_written (hk : LawfulKeys env) (hfl : FloatLaws fl) (hE : JsonEnvOk env) {i : Nat}
    {fs cd nul} (hd : env.defs[i]? = some (.struct fs cd nul)) {vs vs' : List Val}
    (hs : SkipEq env false (.named i) (.struct vs) (.struct vs')) (hT : HasTy env (.named i) (.struct vs'))
    (hX : JsonExact env (.named i) (.struct vs')) {chk txt}
    (h : serializeJson env fl chk (.named i) (.struct vs) = some txt) :
    ∃ ms : List (JTree × JTree), JText fl (.obj ms false) txt ∧
      (ms.map Prod.fst).Sublist ((fs.filter fun f => !f.skip).map fun f => .str (f.rename.getD f.name)) := by
  rw [skipEq_serialize hs] at h
  unfold serializeJson at h
  split at h
  · cases h
  · injection h with h
    subst h
    obtain ⟨ms, h1, h2, _⟩ := struct_members hk hfl hE hd hT hX
    exact ⟨ms, h1, h2⟩

/-- **C29** (reading): whatever the text is, if it is accepted as a derived struct then every
skipped field holds its default (`default` attribute or `Default::default()`). -/
theorem C29_json_skip_reads_default {i : Nat} {fs cd nul} (hd : env.defs[i]? = some (.struct fs cd nul))
    {input : List Char} {v : Val} (h : Decodes (fun n => deserializeJson env fl n (.named i) input) v) :
    ∃ vs, v = .struct vs ∧ vs.length = fs.length ∧ ∀ (j : Nat) f, fs[j]? = some f → f.skip = true →
      vs[j]? = some (f.dfltAttr.getD f.tyDefault) := by
  obtain ⟨n, h⟩ := h
  obtain ⟨s, h⟩ := h (n + 1) (by omega)
  obtain ⟨_, s1, h1, h⟩ := M.bind_inv h
  simp only [deJson, hd] at h
  obtain ⟨vs, s2, h2, h⟩ := M.bind_inv h
  injection h with h _
  exact ⟨vs, h.symm, deJsonNamed_skip h2⟩

/-- The same for the fields of a struct variant. -/
theorem C29_json_skip_in_variant_reads_default {i : Nat} {vars : List Variant} (hd : env.defs[i]? = some (.enum vars))
    {input : List Char} {j : Nat} {ws : List Val}
    (h : Decodes (fun n => deserializeJson env fl n (.named i) input) (.variant j ws))
    {var : Variant} (hv : vars[j]? = some var) {fs} (hsh : var.shape = .named fs) :
    ∀ (k : Nat) f, fs[k]? = some f → f.skip = true → ws[k]? = some (f.dfltAttr.getD f.tyDefault) := by
  obtain ⟨n, h⟩ := h
  obtain ⟨s, h⟩ := h (n + 1) (by omega)
  obtain ⟨_, s1, h1, h⟩ := M.bind_inv h
  simp only [deJson, hd] at h
  obtain ⟨st, s2, h2, h⟩ := M.bind_inv h
  split at h
  · obtain ⟨_, _, _, h⟩ := M.bind_inv h
    obtain ⟨_, _, _, h⟩ := M.bind_inv h
    obtain ⟨_, _, _, h⟩ := M.bind_inv h
    obtain ⟨st', _, _, h⟩ := M.bind_inv h
    cases hf : findVariant vars false st'.strbuf with
    | none => rw [hf] at h; cases h
    | some j' =>
      rw [hf] at h
      obtain ⟨vs, _, h4, h⟩ := M.bind_inv h
      obtain ⟨_, _, _, h⟩ := M.bind_inv h
      injection h with h _
      injection h with hj hw
      subst hj; subst hw
      have hg : (vars.getD j' { name := [], shape := .unit }).shape = .named fs := by
        rw [List.getD_eq_getElem?_getD, hv]; exact hsh
      rw [hg] at h4
      exact (deJsonNamed_skip h4).2
  · split at h
    · obtain ⟨_, _, _, h⟩ := M.bind_inv h
      obtain ⟨st', _, _, h⟩ := M.bind_inv h
      cases hf : findVariant vars true st'.strbuf with
      | none => rw [hf] at h; cases h
      | some j' =>
        rw [hf] at h
        injection h with h _
        injection h with hj hw
        subst hj; subst hw
        have := (List.findIdx?_eq_some_iff_getElem.1 hf).2.1
        have hi := (List.findIdx?_eq_some_iff_getElem.1 hf).1
        rw [List.getElem?_eq_getElem hi] at hv
        injection hv with hv
        rw [hv] at this
        simp [Variant.isUnit, hsh] at this
    · cases h

/-- `Node` from a text that has a member for the skipped field `note`. -/
example : ∃ vs : List Val, vs[1]? = some (.str []) ∧ Decodes (fun n => deserializeJson exJEnv toyFloat n (.named 0)
    (chars "{\"id\":1,\"note\":\"n\"}")) (.struct vs) := by
  have h : Decodes (fun n => deserializeJson exJEnv toyFloat n (.named 0) (chars "{\"id\":1,\"note\":\"n\"}"))
      (.struct [.int 1, .str [], .none]) := json_ok 9 _ (by decide +kernel)
  obtain ⟨vs, e, _, h2⟩ := C29_json_skip_reads_default (i := 0) (fs := _) (cd := _) (nul := _) rfl h
  exact ⟨vs, h2 1 _ rfl rfl, e ▸ h⟩

/-- An enum whose struct variant has a skipped and a renamed field:
`enum W { V { #[nserde(rename = "b")] a: u8, #[nserde(skip)] s: u8 } }`. -/
def wEnum : Def := .enum [{ name := ['V'], shape := Shape.named [
  { name := ['a'], ty := .int .u8, rename := some ['b'] },
  { name := ['s'], ty := .int .u8, skip := true, tyDefault := .int 0 }] }]
/-- The program with that enum. -/
def wEnv : Env := { defs := [wEnum], cmp := fun _ _ => .eq, keyEq := fun _ _ => false }

/-- **C29** (the exception): in struct variants: the skipped field is written. -/
theorem C29_json_skip_in_variant_written :
    serializeJson wEnv toyFloat true (.named 0) (.variant 0 [.int 1, .int 2]) =
      some (chars "{\"V\":{\"a\":1,\"s\":2}}") := by decide +kernel

/-! ## C30 -/

/-- **C30** (writing): the members of a derived struct are called by their new names; every field that
is not skipped and not an `Option` is present under its name, in declaration order.  Reading under
the same name is `C28_json_last_member_wins`, the round trip `C21_json_roundtrip` (for arbitrary
renamings to distinct plain names).  The exceptions are struct variants,
`C30_json_rename_in_variant_broken`, and names that need escaping,
`C30_json_rename_quote_broken`. -/
theorem C30_json_rename_written (hk : LawfulKeys env) (hfl : FloatLaws fl) (hE : JsonEnvOk env) {i : Nat}
    {fs cd nul} (hd : env.defs[i]? = some (.struct fs cd nul)) {vs : List Val} (hT : HasTy env (.named i) (.struct vs))
    (hX : JsonExact env (.named i) (.struct vs)) {chk txt}
    (h : serializeJson env fl chk (.named i) (.struct vs) = some txt) :
    ∃ ms : List (JTree × JTree), JText fl (.obj ms false) txt ∧
      (ms.map Prod.fst).Sublist ((fs.filter fun f => !f.skip).map fun f => .str (f.rename.getD f.name)) ∧
      ∀ f ∈ fs, f.skip = false → f.optSyn = false → JTree.str (f.rename.getD f.name) ∈ ms.map Prod.fst := by
  unfold serializeJson at h
  split at h
  · cases h
  · injection h with h
    subst h
    exact struct_members hk hfl hE hd hT hX

/-- **C30** (writing): a variant is written under its new name. -/
theorem C30_json_variant_written (hE : JsonEnvOk env) {i : Nat} {vars : List Variant}
    (hd : env.defs[i]? = some (.enum vars)) {j : Nat} {var : Variant} (hv : vars[j]? = some var)
    (hu : var.shape = .unit) {chk txt}
    (h : serializeJson env fl chk (.named i) (.variant j []) = some txt) :
    JText fl (.str (var.rename.getD var.name)) txt := by
  unfold serializeJson at h
  split at h
  · cases h
  · injection h with h
    subst h
    obtain ⟨nm, rn, sh⟩ := var
    simp only at hu
    subst hu
    simp only [serJson, hd, hv]
    exact (label_spells ((hE i _ hd).1 _ (List.mem_of_getElem? hv))).text

/-- **C30** (an exception): a renamed field of a struct variant: it is written under its own name but read
under the new one, so the program cannot read its own output. -/
theorem C30_json_rename_in_variant_broken :
    serializeJson wEnv toyFloat true (.named 0) (.variant 0 [.int 1, .int 2]) =
      some (chars "{\"V\":{\"a\":1,\"s\":2}}") ∧
    RejectsWith (fun n => deserializeJson wEnv toyFloat n (.named 0) (chars "{\"V\":{\"a\":1,\"s\":2}}"))
      (.missingKey ['a']) :=
  ⟨by decide +kernel, json_err 20 _ (by decide +kernel)⟩

/-- `struct Q { #[nserde(rename = "a\"b")] x: u8 }`. -/
def qEnv : Env :=
  { defs := [.struct [{ name := ['x'], ty := .int .u8, rename := some ['a', '"', 'b'] }] false false],
    cmp := fun _ _ => .eq, keyEq := fun _ _ => false }

/-- **C30** (an exception): a name with a quote: it is written raw and cannot be read back. -/
theorem C30_json_rename_quote_broken :
    serializeJson qEnv toyFloat true (.named 0) (.struct [.int 1]) = some (chars "{\"a\"b\":1}") ∧
    Rejects (fun n => deserializeJson qEnv toyFloat n (.named 0) (chars "{\"a\"b\":1}")) :=
  ⟨by decide +kernel, (json_err 20 (.unexpectedToken .bareIdent (chars "Got ##b## needed true, false, null"))
    (by decide +kernel)).rejects⟩

/-! ## C35 -/

/-- **C35**: `None` is written as `null`. -/
theorem C35_json_none_is_null (t : Ty) (chk : Bool) :
    serializeJson env fl chk (.option t) .none = some (chars "null") := by
  unfold serializeJson
  simp [visitsEmptyArray, serJson, chars]

/-- **C35**: every text of `null` (in any layout) reads as `None`, at every `Option` type. -/
theorem C35_json_null_is_none (t : Ty) {txt : List Char} (h : JText fl .null txt) :
    Decodes (fun n => deserializeJson env fl n (.option t) txt) .none := by
  refine Settles.decodes (t := .option t) (v := .none) ⟨by simp, 1, fun n hn => ?_⟩ h
  obtain ⟨m, rfl⟩ : ∃ m, n = m + 1 := ⟨n - 1, by omega⟩
  simp [decode]

/-- **C35**: conversely only `null` reads as `None`; any other JSON value is read at the inner type
and gives `Some`. -/
theorem C35_json_some_iff (hw : ProgWf env) (hp : Productive env) {t : Ty} (ht : TyWf env t) {J : JTree}
    (hJ : J ≠ .null) {txt : List Char} (h : JText fl J txt) (v : Val) :
    Decodes (fun n => deserializeJson env fl n (.option t) txt) v ↔
      ∃ w, v = .some w ∧ Decodes (fun n => deserializeJson env fl n t txt) w := by
  have hdec : ∀ m, decode env fl (m + 1) (.option t) (some J) = (decode env fl m t (some J)).bind fun v => .ok (.some v) := by
    intro m
    cases J <;> simp_all [decode]
  rw [decodes_iff hw hp (show TyWf env (.option t) from ht) h]
  constructor
  · intro hs
    obtain ⟨r, hr⟩ := settles (fl := fl) hw hp ht J
    obtain ⟨_, n, hs⟩ := hs
    obtain ⟨hne, m, hr'⟩ := hr
    have e := hs (max n m + 1) (by omega)
    rw [hdec, hr' _ (by omega)] at e
    cases r with
    | ok w =>
      injection e with e
      exact ⟨w, e.symm, (decodes_iff hw hp ht h).2 ⟨hne, m, hr'⟩⟩
    | err => cases e
    | panic => cases e
    | oof => cases e
  · rintro ⟨w, rfl, hw'⟩
    obtain ⟨_, m, hr'⟩ := (decodes_iff hw hp ht h).1 hw'
    refine ⟨by simp, m + 1, fun n hn => ?_⟩
    obtain ⟨k, rfl⟩ : ∃ k, n = k + 1 := ⟨n - 1, by omega⟩
    rw [hdec, hr' k (by omega)]
    rfl

/-- **C35**: `Some(v)` reads back as `Some(v)` unless `v` is itself written as `null`. -/
theorem C35_json_some_roundtrip (hk : LawfulKeys env) (hfl : FloatLaws fl) (hE : JsonEnvOk env) {t : Ty} {v : Val}
    (hT : HasTy env t v) (hX : JsonExact env t v) {chk txt}
    (hn : serializeJson env fl chk t v ≠ some (chars "null"))
    (h : serializeJson env fl chk (.option t) (.some v) = some txt) :
    Decodes (fun n => deserializeJson env fl n (.option t) txt) (.some v) := by
  unfold serializeJson at h hn
  have he : visitsEmptyArray env (.option t) (.some v) = visitsEmptyArray env t v := by simp only [visitsEmptyArray]
  by_cases hc : chk = true ∧ visitsEmptyArray env t v = true
  · rw [if_pos (by rw [he]; exact hc)] at h; cases h
  rw [if_neg hc] at hn
  rw [if_neg (by rw [he]; exact hc)] at h
  injection h with h
  subst h
  refine json_roundtrip hk hfl hE (by simpa [HasTy] using hT) ?_
  simp only [JsonExactT, Holds]
  refine ⟨⟨by simp, by simp, by simp, by simp, ?_⟩, hX.text hfl⟩
  intro t' w' e1 e2
  injection e1 with e1
  injection e2 with e2
  subst e1; subst e2
  intro e
  exact hn (by rw [e]; rfl)

example : Decodes (fun n => deserializeJson exJEnv toyFloat n (.option (.int .u8)) (chars "200")) (.some (.int 200)) := by
  refine C35_json_some_roundtrip (v := .int 200) (chk := false) exJEnv_lawful toyFloat_laws exJEnv_ok ?_ ?_ ?_ ?_
  · show IntKind.inRange .u8 200
    decide
  · simp [JsonExact, Holds, JsonNodeOk, IntKind.textual]
  · decide +kernel
  · decide +kernel

/-- The exception is real: `Some(None)` is written as `null` and read back as `None`. -/
theorem C35_json_some_none_collapses (t : Ty) (chk : Bool) :
    serializeJson env fl chk (.option (.option t)) (.some .none) = some (chars "null") ∧
    Decodes (fun n => deserializeJson env fl n (.option (.option t)) (chars "null")) .none := by
  refine ⟨by unfold serializeJson; simp [visitsEmptyArray, serJson, chars], C35_json_null_is_none _ ?_⟩
  have : Spells fl .null (chars "null") := by
    unfold Spells; rw [JTree.lexemes]; exact .single .null
  exact this.text

/-! ## C38 (JSON) -/

/-- **C38**: if the program has no type `[T; 0]`, `serialize_json` of a well-typed value returns a
text, with or without overflow checks.  The exception: `C38_json_empty_array_panics`. -/
theorem C38_json_serialize_total (hE : NoEmptyArrays env) {t : Ty} (ht : t.noEmptyArr = true) {v : Val}
    (hT : HasTy env t v) (chk : Bool) : ∃ txt, serializeJson env fl chk t v = some txt := by
  refine ⟨serJson env fl t v, ?_⟩
  unfold serializeJson
  rw [if_neg]
  simp [noEmptyArr_visits hE v t ht hT]

/-- **C38**: without overflow checks (a release build) it returns a text for every value. -/
theorem C38_json_serialize_total_release (t : Ty) (v : Val) : ∃ txt, serializeJson env fl false t v = some txt :=
  ⟨serJson env fl t v, by simp [serializeJson]⟩

/-- **C38** (the exception): the empty array in a build with overflow checks. -/
theorem C38_json_empty_array_panics (t : Ty) : serializeJson env fl true (.array t 0) (.seq []) = none := by
  simp [serializeJson, visitsEmptyArray]

example : ∃ txt, serializeJson exJEnv toyFloat true (.array (.named 1) 2) (.seq [.variant 0 [], .variant 0 []]) = some txt :=
  C38_json_serialize_total ⟨by
    intro d hd u hu
    have := exJEnv_wf.defs d hd u hu
    simp only [exJEnv_defs, List.mem_cons, List.not_mem_nil, or_false] at hd
    rcases hd with rfl | rfl | rfl | rfl | rfl <;>
      simp [Def.tys, exNode, exEnum, exMeters, exConf, exEmpty] at hu <;>
      (try rcases hu with rfl | rfl | rfl | rfl | rfl) <;> rfl, by
    intro p hp
    simp [exJEnv, lawEnv] at hp
    subst hp; rfl⟩ rfl (by simp [HasTy, AllTy, exEnum]) true

end NS
