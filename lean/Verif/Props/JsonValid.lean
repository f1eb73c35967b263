import Verif.Lemmas.JsonValid
import Verif.Lemmas.RfcScan
import Verif.Lemmas.SkipJson
import Verif.Props.ExamplesText
/-! # Property C22: JSON output is valid RFC 8259 -/
namespace NS
variable {env : Env} {fl : FloatOps}

/-- **C22**: the output of `serialize_json` is an RFC 8259 text (indeed a value), for every type and
value within the conditions of `Verif/Spec/JsonValid.lean`, whatever skipped fields hold.
The four theorems that follow show that the conditions are needed. -/
theorem C22_json_output_is_rfc8259 (hfl : FloatLaws fl) (hE : RfcEnvOk env) {t : Ty} {v v' : Val}
    (hs : SkipEq env false t v v') (hT : HasTy env t v') (hX : RfcExact env t v') {chk : Bool} {txt : List Char}
    (h : serializeJson env fl chk t v = some txt) : Rfc.Text txt := by
  rw [skipEq_serialize hs] at h
  unfold serializeJson at h
  split at h
  · cases h
  · injection h with h
    subst h
    exact ⟨[], _, [], by simp, Rfc.Ws.nil, json_value hfl hE _ _ hT hX, Rfc.Ws.nil⟩

/-- **C22** (an exception): non-finite floats, which are written as `NaN`, `inf` and `-inf`. -/
theorem C22_json_nonfinite_invalid (hfl : FloatLaws fl) (chk : Bool) (x : BitVec 64) (hx : ¬ finite64 x) :
    ∃ txt, serializeJson env fl chk .f64 (.f64 x) = some txt ∧ ¬ Rfc.Text txt := by
  refine ⟨fl.show64 x, by simp [serializeJson, visitsEmptyArray, serJson], Rfc.not_text ?_⟩
  have := hfl.nonfinite64 x hx
  simp only [List.mem_cons, List.not_mem_nil, or_false] at this
  rcases this with h | h | h <;> rw [h] <;> decide

theorem run_showInt (i : Int) (t : List Char) : Rfc.run .o (showInt i ++ t) = none := by
  obtain ⟨sg, d, r, e, h1, hd, _⟩ := (showInt_number i).shape
  rw [e]
  rcases h1 with rfl | rfl
  · show (Rfc.step .o d).bind _ = none
    have : Rfc.step .o d = none := by
      have hw : Rfc.isWsB d = false := by
        simp [Rfc.isWsB, hd.ne (d := ' ') (by unfold Rfc.Digit; decide), hd.ne (d := '\t') (by unfold Rfc.Digit; decide),
          hd.ne (d := '\n') (by unfold Rfc.Digit; decide), hd.ne (d := '\r') (by unfold Rfc.Digit; decide)]
      simp [Rfc.step, hw, hd.ne (d := '"') (by unfold Rfc.Digit; decide), hd.ne (d := '}') (by unfold Rfc.Digit; decide)]
    rw [this]; rfl
  · rfl

/-- **C22** (an exception): non-empty maps whose keys are integers: the keys are written without quotes. -/
theorem C22_json_integer_keys_invalid (k : IntKind) (t : Ty) (i : Int) (v : Val) (es : List Val)
    (chk : Bool) (txt : List Char)
    (h : serializeJson env fl chk (.hmap (.int k) t) (.seq (.entry (.int i) v :: es)) = some txt) : ¬ Rfc.Text txt := by
  unfold serializeJson at h
  split at h
  · cases h
  · injection h with h
    subst h
    apply Rfc.not_text
    have : ∃ r, serJson env fl (.hmap (.int k) t) (.seq (.entry (.int i) v :: es)) = '{' :: (showInt i ++ r) := by
      rw [serJson, serJsonEntries, serJson]
      cases e : serJsonEntries env fl (.int k) t es with
      | nil => exact ⟨_, by simp only [joinSep, List.append_assoc]; rfl⟩
      | cons x r => exact ⟨_, by simp only [joinSep, List.append_assoc]; rfl⟩
    obtain ⟨r, hr⟩ := this
    rw [hr]
    exact run_showInt i r

/-- `enum V { S { a: u8, b: Option<u8> } }` and `struct Q { #[nserde(rename = "a\"b")] x: u8 }`. -/
def c22Env : Env :=
  { cmp := fun _ _ => .eq, keyEq := fun _ _ => false, defs := [
    .enum [⟨chars "S", none, .named [{ name := chars "a", ty := .int .u8 },
      { name := chars "b", ty := .option (.int .u8), optSyn := true, tyDefault := .none }]⟩],
    .struct [{ name := chars "x", ty := .int .u8, rename := some (chars "a\"b") }] false false] }

/-- **C22** (an exception): a struct variant whose last field is an omitted `None`: a comma precedes the
closing brace. -/
theorem C22_json_variant_trailing_comma :
    serializeJson c22Env toyFloat true (.named 0) (.variant 0 [.int 1, .none]) = some (chars "{\"S\":{\"a\":1,}}") ∧
      ¬ Rfc.Text (chars "{\"S\":{\"a\":1,}}") := ⟨by decide +kernel, Rfc.not_text (by decide)⟩

/-- **C22** (an exception): a name containing a quote: names are written without escapes. -/
theorem C22_json_rename_quote_invalid :
    serializeJson c22Env toyFloat true (.named 1) (.struct [.int 1]) = some (chars "{\"a\"b\":1}") ∧
      ¬ Rfc.Text (chars "{\"a\"b\":1}") := ⟨by decide +kernel, Rfc.not_text (by decide)⟩

theorem exJEnv_rfc : RfcEnvOk exJEnv := by
  intro i d h
  simp only [exJEnv_defs] at h
  match i with
  | 0 =>
    simp at h; subst h
    intro f hf _; simp at hf; rcases hf with rfl | rfl | rfl <;> (unfold RfcName; decide)
  | 1 =>
    simp at h; subst h
    intro v hv
    simp at hv
    rcases hv with rfl | rfl | rfl <;> refine ⟨by unfold RfcName; decide, fun fs hfs f hf => ?_⟩ <;> simp at hfs
    subst hfs
    simp at hf
    rcases hf with rfl | rfl <;> (unfold RfcName; decide)
  | 2 => simp at h; subst h; trivial
  | 3 =>
    simp at h; subst h
    intro f hf _; simp at hf; rcases hf with rfl | rfl | rfl | rfl | rfl <;> (unfold RfcName; decide)
  | 4 => simp at h; subst h; intro f hf; simp at hf
  | n + 5 => simp at h

/-- `HashMap<String, Vec<Conf>>` with a skipped field that does not hold its default. -/
example : ∀ txt, serializeJson exJEnv toyFloat true (.hmap .str (.vec (.named 3)))
    (.seq [.entry (.str ['a', '"']) (.seq [.struct [.str ['a', '"', 'b'], .int 7, .some (.struct [.int 12]), .int 99, .f64 5]])])
      = some txt → Rfc.Text txt := by
  intro txt h
  refine C22_json_output_is_rfc8259 (v' := .seq [.entry (.str ['a', '"']) (.seq [exConfVal])])
    toyFloat_laws exJEnv_rfc ?_ ?_ ?_ h
  · simp [SkipEq, SkipEqEntries, SkipEqAll, exConfVal, exConf, SkipEqFields, SkipEqTys, exMeters]
  · simp [HasTy, EntriesTy, AllTy, exConfVal, exConf, FieldsTy, exMeters, TysTy, IntKind.inRange, IntKind.lo, IntKind.hi,
      IntKind.signed, IntKind.bytes, u64Max, isizeMax]
  · simp [RfcExact, Holds, HoldsEntries, HoldsAll, exConfVal, exConf, HoldsFields, HoldsTys, exMeters, RfcNodeOk,
      Field.absent, finite64]
    exact .str

end NS
