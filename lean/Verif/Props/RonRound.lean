import Verif.Lemmas.RonRoundTrip
import Verif.Lemmas.RonSim
import Verif.Lemmas.SkipRon
import Verif.Lemmas.EmptyArr
import Verif.Props.JsonRound
/-! # Properties C38 (RON), C39, C40: RON round trip -/
namespace NS
variable {env : Env} {fl : FloatOps}

/-! ## C39 -/

/-- **C39**: every string is read back as itself. -/
theorem C39_ron_string_roundtrip (s : List Char) {chk : Bool} {txt : List Char}
    (h : serializeRon env fl chk .str (.str s) = some txt) :
    Decodes (fun n => deserializeRon env fl n .str txt) (.str s) := by
  unfold serializeRon at h
  simp only [visitsEmptyArray, Bool.false_eq_true, and_false, if_false, serRon] at h
  injection h with h
  subst h
  refine ron_reads_of (x := .str s) ?_ Ron.reads_str
  have : RSpells fl (.str s) (ronStr s) := by
    unfold RSpells; rw [RTree.lexemes]; exact .single (.str (ronStr_lit s))
  exact this.text

/-- **C39**: and it can always be written. -/
theorem C39_ron_string_written (s : List Char) (chk : Bool) : ∃ txt, serializeRon env fl chk .str (.str s) = some txt := by
  unfold serializeRon
  simp [visitsEmptyArray]

example : Decodes (fun n => deserializeRon exJEnv toyFloat n .str (chars "\"a\\\"\\n\\\\/*é\\0\""))
    (.str (chars "a\"\n\\/*é" ++ ['\x00'])) :=
  C39_ron_string_roundtrip (chars "a\"\n\\/*é" ++ ['\x00']) (chk := true) (by decide +kernel)

/-! ## C40 -/

/-- **C40**: `deserialize_ron(serialize_ron(v)) == Ok(v')` where `v'` is `v` with skipped fields at
their defaults (`v' = v` if there are none), for every type and every value that RON represents
exactly. -/
theorem C40_ron_roundtrip (hk : LawfulKeys env) (hfl : FloatLaws fl) (hE : RonEnvOk env) {t : Ty} {v v' : Val}
    (hs : SkipEq env false t v v') (hT : HasTy env t v') (hX : RonExact env t v') {chk : Bool} {txt : List Char}
    (h : serializeRon env fl chk t v = some txt) :
    Decodes (fun n => deserializeRon env fl n t txt) v' := by
  rw [rSkipEq_serialize hs] at h
  unfold serializeRon at h
  split at h
  · cases h
  · injection h with h
    subst h
    exact ron_round hk hfl hE hT (hX.text hfl hE)

theorem ronName_of (s : List Char) (c : Char) (r : List Char) (e : s = c :: r) (h : isIdStart c = true) (hr : r.all isIdChar = true)
    (h1 : s ≠ ['t', 'r', 'u', 'e']) (h2 : s ≠ ['f', 'a', 'l', 's', 'e']) : RonName s := by
  refine ⟨⟨c, r, e, ?_, fun d hd => (Ron.isIdChar_iff d).1 (List.all_eq_true.1 hr d hd)⟩, h1, h2⟩
  simp only [isIdStart, Bool.or_eq_true, Bool.and_eq_true, decide_eq_true_eq, beq_iff_eq] at h
  unfold IdStart
  rcases h with (h | h) | h
  · exact .inl h
  · exact .inr (.inl h)
  · exact .inr (.inr h)

theorem exJEnv_ron : RonEnvOk exJEnv := by
  intro i d h
  simp only [exJEnv_defs] at h
  match i with
  | 0 =>
    simp at h; subst h
    constructor
    · intro f hf _; simp at hf
      rcases hf with rfl | rfl | rfl <;> exact ronName_of _ _ _ rfl (by decide) (by decide) (by decide) (by decide)
    · simp [DistinctNames, Field.jsonName, chars]
    · simp [Field.absentValue]
  | 1 =>
    simp at h; subst h
    refine ⟨?_, ?_, ?_⟩
    · intro f hf; simp at hf
      rcases hf with rfl | rfl | rfl <;> exact ronName_of _ _ _ rfl (by decide) (by decide) (by decide) (by decide)
    · simp [chars]
    · intro v hv fs hfs
      simp at hv
      rcases hv with rfl | rfl | rfl <;> simp at hfs
      subst hfs
      refine ⟨⟨?_, ?_, ?_⟩, ?_⟩
      · intro f hf _; simp at hf
        rcases hf with rfl | rfl <;> exact ronName_of _ _ _ rfl (by decide) (by decide) (by decide) (by decide)
      · simp [DistinctNames, Field.jsonName, chars]
      · simp [Field.absentValue]
      · simp
  | 2 => simp at h; subst h; trivial
  | 3 =>
    simp at h; subst h
    constructor
    · intro f hf _; simp at hf
      rcases hf with rfl | rfl | rfl | rfl | rfl <;> exact ronName_of _ _ _ rfl (by decide) (by decide) (by decide) (by decide)
    · simp [DistinctNames, Field.jsonName, chars]
    · simp [Field.absentValue]
  | 4 => simp at h; subst h; constructor <;> simp [DistinctNames]
  | n + 5 => simp at h

/-- `Conf { .., cache: 99, .. }`, written and read back, gives `cache: 0`. -/
example : Decodes (fun n => deserializeRon exJEnv toyFloat n (.named 3)
    (serRon exJEnv toyFloat (.named 3)
      (.struct [.str ['a', '"', 'b'], .int 7, .some (.struct [.int 12]), .int 99, .f64 5]))) exConfVal := by
  refine C40_ron_roundtrip (v := .struct [.str ['a', '"', 'b'], .int 7, .some (.struct [.int 12]), .int 99, .f64 5])
    exJEnv_lawful toyFloat_laws exJEnv_ron (chk := false) ?_ ?_ ?_ rfl
  · simp [SkipEq, exConfVal, exConf, SkipEqFields, SkipEqTys, exMeters]
  · simp [HasTy, exConfVal, exConf, FieldsTy, exMeters, TysTy, IntKind.inRange, IntKind.lo, IntKind.hi, IntKind.signed,
      IntKind.bytes]
  · simp [RonExact, Holds, exConfVal, exConf, HoldsFields, HoldsTys, exMeters, RonNodeOk, IntKind.textual, Field.absentValue,
      finite64]
    intro h
    cases h

/-! The conditions are needed. -/

/-- Nested options collapse. -/
theorem C40_ron_some_none_collapses (t : Ty) (chk : Bool) :
    serializeRon env fl chk (.option (.option t)) (.some .none) = some (chars "None") ∧
    Decodes (fun n => deserializeRon env fl n (.option (.option t)) (chars "None")) .none := by
  refine ⟨by unfold serializeRon; simp [visitsEmptyArray, serRon, chars, noneText], ron_reads_of (x := .word (chars "None")) ?_ Ron.reads_none⟩
  have : RSpells fl (.word (chars "None")) (chars "None") := by
    unfold RSpells; rw [RTree.lexemes]
    exact .single (.word (ronName_of _ _ _ rfl (by decide) (by decide) (by decide) (by decide)).1)
  exact this.text

/-- Programs for the counterexamples: `enum N { None, A }`, `enum W` (see `wEnum`),
`struct R { #[nserde(rename = "a-b")] x: u8 }`, `struct D { #[nserde(default = "5")] x: Option<u8> }`,
`struct T { r#true: u8 }`. -/
def badRonEnv : Env :=
  { defs := [.enum [{ name := chars "None", shape := .unit }, { name := chars "A", shape := .unit }], wEnum,
      .struct [{ name := ['x'], ty := .int .u8, rename := some (chars "a-b") }] false false,
      .struct [{ name := ['x'], ty := .option (.int .u8), optSyn := true, dfltAttr := some (.some (.int 5)) }] false false,
      .struct [{ name := chars "true", ty := .int .u8 }] false false],
    cmp := fun _ _ => .eq, keyEq := fun _ _ => false }

/-- A variant called `None` inside an `Option` reads back as the `None` of the `Option`. -/
theorem C40_ron_variant_none_collapses :
    serializeRon badRonEnv toyFloat true (.option (.named 0)) (.some (.variant 0 [])) = some (chars "None") ∧
    Decodes (fun n => deserializeRon badRonEnv toyFloat n (.option (.named 0)) (chars "None")) .none :=
  ⟨by decide +kernel, ron_ok 9 _ (by decide +kernel)⟩

/-- Renamed fields of struct variants are written under their own names and cannot be read back. -/
theorem C40_ron_rename_in_variant_broken :
    serializeRon badRonEnv toyFloat true (.named 1) (.variant 0 [.int 1, .int 2]) = some (chars "V(a:1,s:2,)") ∧
    RejectsWith (fun n => deserializeRon badRonEnv toyFloat n (.named 1) (chars "V(a:1,s:2,)")) (.unexpectedKey ['a']) :=
  ⟨by decide +kernel, ron_err 20 _ (by decide +kernel)⟩

/-- A name that is not an identifier is written raw and cannot be read back. -/
theorem C40_ron_rename_not_ident_broken :
    serializeRon badRonEnv toyFloat true (.named 2) (.struct [.int 1]) = some (chars "(a-b:1,)") ∧
    RejectsWith (fun n => deserializeRon badRonEnv toyFloat n (.named 2) (chars "(a-b:1,)")) (.unexpectedKey ['a']) :=
  ⟨by decide +kernel, ron_err 20 _ (by decide +kernel)⟩

/-- `None` in a field whose default is `Some(5)` reads back as `Some(5)`. -/
theorem C40_ron_none_with_default_broken :
    serializeRon badRonEnv toyFloat true (.named 3) (.struct [.none]) = some (chars "()") ∧
    Decodes (fun n => deserializeRon badRonEnv toyFloat n (.named 3) (chars "()")) (.struct [.some (.int 5)]) :=
  ⟨by decide +kernel, ron_ok 20 _ (by decide +kernel)⟩

/-- A field called `true` cannot be read back. -/
theorem C40_ron_field_true_broken :
    serializeRon badRonEnv toyFloat true (.named 4) (.struct [.int 1]) = some (chars "(true:1,)") ∧
    Rejects (fun n => deserializeRon badRonEnv toyFloat n (.named 4) (chars "(true:1,)")) := by
  refine ⟨by decide +kernel, ?_⟩
  obtain ⟨e, s, h, _⟩ := Out.errSat_spec (o := deserializeRon badRonEnv toyFloat 20 (.named 4) (chars "(true:1,)"))
    (f := fun _ _ => true) (by decide +kernel)
  exact rrejects_of_run h

/-! ## C38 (RON) -/

/-- **C38**: if the program has no type `[T; 0]`, `serialize_ron` of a well-typed value returns a
text.  The exception: `C38_ron_empty_array_panics`. -/
theorem C38_ron_serialize_total (hE : NoEmptyArrays env) {t : Ty} (ht : t.noEmptyArr = true) {v : Val}
    (hT : HasTy env t v) (chk : Bool) : ∃ txt, serializeRon env fl chk t v = some txt := by
  refine ⟨serRon env fl t v, ?_⟩
  unfold serializeRon
  rw [if_neg]
  simp [noEmptyArr_visits hE v t ht hT]

/-- **C38**: without overflow checks (a release build) it returns a text for every value. -/
theorem C38_ron_serialize_total_release (t : Ty) (v : Val) : ∃ txt, serializeRon env fl false t v = some txt :=
  ⟨serRon env fl t v, by simp [serializeRon]⟩

/-- **C38** (the exception): the empty array in a build with overflow checks. -/
theorem C38_ron_empty_array_panics (t : Ty) : serializeRon env fl true (.array t 0) (.seq []) = none := by
  simp [serializeRon, visitsEmptyArray]

end NS
