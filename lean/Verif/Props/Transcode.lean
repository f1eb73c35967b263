import Verif.Lemmas.Transcode
import Verif.Lemmas.HoldsTyped
import Verif.Lemmas.BinTyped
import Verif.Props.Bin
import Verif.Props.Reread
import Verif.Props.RonRound
/-! # Values read from one format and stored in another (C94) -/
namespace NS
variable {env : Env} {fl : FloatOps} {chk : Bool}

/-- **C94**: a value that `deserialize_json` returned (for any text) is written as bytes from which
`deserialize_bin` returns it again, all of them read.  (`hT`: the value is one that fits in memory; see C85.
Infinite floats come along too.) -/
theorem C94_json_to_bin (hfl : FloatLaws fl) (hk : LawfulKeys env) (hd : DistinctProg env) (hsm : EnumsSmall env)
    (hs : BinSaneText env) {t : Ty} {txt : List Char} (hl : txt.length ≤ isizeMax) {n : Nat} {v : Val} {s : PSt}
    (h : deserializeJson env fl n t txt = .ok v s) (hT : HasTy env t v)
    (hlen : (serializeBin env t v).length ≤ isizeMax) :
    Returns (fun n => deserializeBin env chk n t (serializeBin env t v)) (.ok v (serializeBin env t v).length) := by
  refine C01_bin_round_trip_exact hk hsm t v hT ?_ hlen
  rcases C66_json_reads_only hfl hk hd h with ⟨ls, hb, h⟩ | ⟨a, b, _, _, h⟩
  · exact jsays_binExact hk hs h (Nat.le_trans (jbegins_length hb) (text_fits hl))
  · exact strPair_binExact hs h

/-- **C94**: the same for a value that `deserialize_ron` returned. -/
theorem C94_ron_to_bin (hfl : FloatLaws fl) (hk : LawfulKeys env) (hd : DistinctProg env) (hsm : EnumsSmall env)
    (hs : BinSaneText env) {t : Ty} {txt : List Char} {n : Nat} {v : Val} {s : PSt}
    (h : deserializeRon env fl n t txt = .ok v s) (hT : HasTy env t v)
    (hlen : (serializeBin env t v).length ≤ isizeMax) :
    Returns (fun n => deserializeBin env chk n t (serializeBin env t v)) (.ok v (serializeBin env t v).length) := by
  refine C01_bin_round_trip_exact hk hsm t v hT ?_ hlen
  rcases C64_ron_reads_only hfl hk hd h with ⟨x, hb, h⟩ | ⟨a, b, _, _, h⟩
  · exact rmeans_binExact hk hs h
  · exact wordPair_binExact h

/-- **C94**: a value with finite floats that `deserialize_json` returned is written as a RON text from which
`deserialize_ron` returns it again (types with a `proxy` have no RON reader; a variant called `None` reads as
`None` in an `Option`). -/
theorem C94_json_to_ron (hfl : FloatLaws fl) (hk : LawfulKeys env) (hd : DistinctProg env) (hE : JsonEnvOk env)
    (hR : RonEnvOk env) (hs : JsonSaneText env) (hp : env.proxies = [])
    (hN : ∀ (i : Nat) vars, env.defs[i]? = some (.enum vars) → ∀ v ∈ vars, v.name ≠ ['N', 'o', 'n', 'e'])
    {t : Ty} {txt : List Char} (hl : txt.length ≤ isizeMax) {n : Nat} {v : Val} {s : PSt}
    (h : deserializeJson env fl n t txt = .ok v s) (hf : v.floatsFinite) {txt' : List Char}
    (hw : serializeRon env fl chk t v = some txt') :
    Decodes (fun n => deserializeRon env fl n t txt') v := by
  have hT := C85_json_read_typed hfl hk hd hs.toSaneText hl h
  have hX : JsonExact env t v := by
    rcases C66_json_reads_only hfl hk hd h with ⟨ls, hb, h⟩ | ⟨a, b, _, _, h⟩
    · exact jsays_exact hk hE hs h (Nat.le_trans (jbegins_length hb) (text_fits hl)) hf
    · exact strPair_exact hs h hf
  have hX' : RonExact env.unlimited t v := JsonExact.ron (env := env.unlimited) hp hN hT (jsonExact_unlimited hX)
  unfold serializeRon at hw
  split at hw
  · cases hw
  · injection hw with hw
    subst hw
    have hR' : RonEnvOk env.unlimited := fun i d h => hR i d h
    have := ron_round (lawful_unlimited hk) hfl hR' hT (hX'.text hfl hR')
    rw [serRon_unlimited] at this
    have e : ∀ n txt, deserializeRon env.unlimited fl n t txt = deserializeRon env fl n t txt := by
      intro n txt
      unfold deserializeRon
      rw [deRon_unlimited]
    simpa only [e] using this

/-- **C94**: a value that `deserialize_bin` returned, if JSON represents it at all, is written as a JSON text
from which `deserialize_json` returns it. -/
theorem C94_bin_to_json (hfl : FloatLaws fl) (hk : LawfulKeys env) (hsane : SaneEnv env) (hE : JsonEnvOk env) {t : Ty}
    {d : List Byte} (hd : d.length ≤ isizeMax) {n o : Nat} {v : Val} (h : deserializeBin env chk n t d = .ok v o)
    (hX : JsonExact env t v) {chk' : Bool} {txt : List Char} (hw : serializeJson env fl chk' t v = some txt) :
    Decodes (fun n => deserializeJson env fl n t txt) v := by
  unfold serializeJson at hw
  split at hw
  · cases hw
  · injection hw with hw
    subst hw
    exact json_roundtrip hk hfl hE (deBin_typed hk hsane hd n t 0 v o h).1 (hX.text hfl)

/-- **C94**: the same for RON. -/
theorem C94_bin_to_ron (hfl : FloatLaws fl) (hk : LawfulKeys env) (hsane : SaneEnv env) (hE : RonEnvOk env) {t : Ty}
    {d : List Byte} (hd : d.length ≤ isizeMax) {n o : Nat} {v : Val} (h : deserializeBin env chk n t d = .ok v o)
    (hX : RonExact env t v) {chk' : Bool} {txt : List Char} (hw : serializeRon env fl chk' t v = some txt) :
    Decodes (fun n => deserializeRon env fl n t txt) v := by
  unfold serializeRon at hw
  split at hw
  · cases hw
  · injection hw with hw
    subst hw
    exact ron_round hk hfl hE (deBin_typed hk hsane hd n t 0 v o h).1 (hX.text hfl hE)

/-! ### Examples -/

theorem exJEnv_fieldBin {cd : Bool} {f : Field} (h : FieldOf exJEnv cd f) (ha : f.mayBeAbsent cd) :
    BinExact exJEnv f.ty f.absentValue := by
  rcases h with ⟨i, fs, nul, hd, hf⟩ | ⟨rfl, i, vars, v, fs, hd, hv, hs, hf⟩
  · simp only [exJEnv_defs] at hd
    match i with
    | 0 =>
      simp [exNode] at hd; obtain ⟨rfl, rfl, _⟩ := hd
      simp only [List.mem_cons, List.not_mem_nil, or_false] at hf
      rcases hf with rfl | rfl | rfl
      · simp [Field.mayBeAbsent] at ha
      · simp [Field.absentValue, BinExact, Holds]
      · simp [Field.absentValue, BinExact, Holds]
    | 1 => simp [exEnum] at hd
    | 2 => simp [exMeters] at hd
    | 3 =>
      simp [exConf] at hd; obtain ⟨rfl, rfl, _⟩ := hd
      simp only [List.mem_cons, List.not_mem_nil, or_false] at hf
      rcases hf with rfl | rfl | rfl | rfl | rfl
      · simp [Field.mayBeAbsent] at ha
      · simp [Field.absentValue, BinExact, Holds]
      · simp [Field.absentValue, BinExact, Holds]
      · simp [Field.absentValue, BinExact, Holds]
      · simp [Field.mayBeAbsent] at ha
    | 4 => simp [exEmpty] at hd; obtain ⟨rfl, rfl, _⟩ := hd; simp at hf
    | n + 5 => simp at hd
  · simp only [exJEnv_defs] at hd
    match i with
    | 0 => simp [exNode] at hd
    | 1 =>
      simp [exEnum] at hd; subst hd
      simp only [List.mem_cons, List.not_mem_nil, or_false] at hv
      rcases hv with rfl | rfl | rfl <;> simp at hs
      subst hs
      simp only [List.mem_cons, List.not_mem_nil, or_false] at hf
      rcases hf with rfl | rfl <;> simp [Field.mayBeAbsent] at ha
    | 2 => simp [exMeters] at hd
    | 3 => simp [exConf] at hd
    | 4 => simp [exEmpty] at hd
    | n + 5 => simp at hd

theorem exJEnv_skipped (i : Nat) (fs : List Field) (cd nul : Bool) (hd : exJEnv.defs[i]? = some (.struct fs cd nul)) :
    ∀ f ∈ fs, f.skip = true → f.absentValue = f.tyDefault := by
  simp only [exJEnv_defs] at hd
  match i with
  | 0 => simp [exNode] at hd; obtain ⟨rfl, rfl, _⟩ := hd; simp [Field.absentValue]
  | 1 => simp [exEnum] at hd
  | 2 => simp [exMeters] at hd
  | 3 => simp [exConf] at hd; obtain ⟨rfl, rfl, _⟩ := hd; simp [Field.absentValue]
  | 4 => simp [exEmpty] at hd; obtain ⟨rfl, rfl, _⟩ := hd; simp
  | n + 5 => simp at hd

theorem exJEnv_binSane : BinSaneText exJEnv :=
  { exJEnv_sane with
    skipped := exJEnv_skipped
    absentExact := fun _ _ h ha => exJEnv_fieldBin h ha
    proxiesExact := fun _ _ p h _ hx => by rw [exJEnv_proxy h]; exact hx }

theorem exJEnv_small : EnumsSmall exJEnv := by
  intro i vars h
  simp only [exJEnv_defs] at h
  match i with
  | 0 => simp [exNode] at h
  | 1 => simp [exEnum] at h; subst h; simp
  | 2 => simp [exMeters] at h
  | 3 => simp [exConf] at h
  | 4 => simp [exEmpty] at h
  | n + 5 => simp at h

/-- C94: what was read from the text with a repeated, an unknown and a missing member (C85) is stored in 26
bytes and read back from them. -/
example : Returns (fun n => deserializeBin exJEnv chk n (.named 3) (serializeBin exJEnv (.named 3) exLooseVal))
    (.ok exLooseVal (serializeBin exJEnv (.named 3) exLooseVal).length) := by
  obtain ⟨n, s, h⟩ := exLoose_reads
  exact C94_json_to_bin toyFloat_laws exJEnv_lawful exJEnv_distinct exJEnv_small exJEnv_binSane (by decide +kernel) h
    exLooseVal_typed (by decide +kernel)

example : Returns (fun n => deserializeBin exJEnv chk n (.named 3) (serializeBin exJEnv (.named 3) exLooseVal))
    (.ok exLooseVal (serializeBin exJEnv (.named 3) exLooseVal).length) := by
  obtain ⟨s, h⟩ := Out.isOk_spec (r := deserializeRon exJEnv toyFloat 40 (.named 3) exLooseRon) (v := exLooseVal) (by decide +kernel)
  exact C94_ron_to_bin toyFloat_laws exJEnv_lawful exJEnv_distinct exJEnv_small exJEnv_binSane h exLooseVal_typed (by decide +kernel)

/-- `struct Pt { x: f64, tags: Vec<String>, w: Option<u8> }`. -/
def exPt : Def := .struct
  [ { name := ['x'], ty := .f64, tyDefault := .f64 0 },
    { name := ['t', 'a', 'g', 's'], ty := .vec .str, tyDefault := .seq [] },
    { name := ['w'], ty := .option (.int .u8), optSyn := true, tyDefault := .none } ] false false
noncomputable def exPtEnv : Env := lawEnv [exPt] []

theorem exPtEnv_def {i : Nat} {d : Def} (h : exPtEnv.defs[i]? = some d) : d = exPt := by
  match i with
  | 0 => exact (Option.some.inj h).symm
  | n + 1 => simp [exPtEnv, lawEnv] at h

theorem exPtEnv_field {cd : Bool} {f : Field} (h : FieldOf exPtEnv cd f) :
    f.optProxy = false ∧ f.skip = false ∧ (f.mayBeAbsent cd → f.ty = .option (.int .u8) ∧ f.absentValue = .none) := by
  rcases h with ⟨i, fs, nul, hd, hf⟩ | ⟨rfl, i, vars, v, fs, hd, hv, hs, hf⟩
  · have := exPtEnv_def hd
    simp only [exPt, Def.struct.injEq] at this
    obtain ⟨rfl, rfl, rfl⟩ := this
    simp only [List.mem_cons, List.not_mem_nil, or_false] at hf
    rcases hf with rfl | rfl | rfl <;> simp [Field.mayBeAbsent, Field.absentValue]
  · have := exPtEnv_def hd
    cases this

theorem exPtEnv_jsonSane : JsonSaneText exPtEnv where
  absent := fun cd f h ha => by
    obtain ⟨h1, h2⟩ := (exPtEnv_field h).2.2 ha
    rw [h1, h2]; trivial
  proxies := fun i px p h => by simp [exPtEnv, lawEnv] at h
  absentExact := fun cd f h ha _ _ => by
    obtain ⟨h1, h2⟩ := (exPtEnv_field h).2.2 ha
    rw [h1, h2]; simp [JsonExact, Holds, JsonNodeOk]
  proxiesExact := fun i px p h => by simp [exPtEnv, lawEnv] at h
  optProxy := fun cd f h ho => by rw [(exPtEnv_field h).1] at ho; cases ho

theorem exPtEnv_ok : JsonEnvOk exPtEnv := by
  intro i d h
  rw [exPtEnv_def h]
  constructor
  · intro f hf _
    simp only [List.mem_cons, List.not_mem_nil, or_false] at hf
    rcases hf with rfl | rfl | rfl <;> (unfold PlainName; decide)
  · simp [Field.jsonName]
  · simp
  · simp [Field.absent]

theorem exPtEnv_ron : RonEnvOk exPtEnv := by
  intro i d h
  rw [exPtEnv_def h]
  constructor
  · intro f hf _
    simp only [List.mem_cons, List.not_mem_nil, or_false] at hf
    rcases hf with rfl | rfl | rfl <;> exact ronName_of _ _ _ rfl (by decide) (by decide) (by decide) (by decide)
  · simp [DistinctNames, Field.jsonName]
  · simp [Field.absentValue]

theorem exPtEnv_distinct : DistinctProg exPtEnv := by
  constructor
  · intro i fs cd nul h
    have := exPtEnv_def h
    simp only [exPt, Def.struct.injEq] at this
    obtain ⟨rfl, rfl, rfl⟩ := this
    simp [DistinctNames]; decide
  · intro i vars h
    cases exPtEnv_def h
  · intro i vars h
    cases exPtEnv_def h

theorem exPtEnv_sane : SaneEnv exPtEnv := by
  constructor
  · intro i fs cd nn h f hf hs
    have := (exPtEnv_field (.inl ⟨i, fs, nn, h, hf⟩)).2.1
    rw [this] at hs; cases hs
  · intro _ _ _ _ _; rfl
  · intro i px h
    simp [exPtEnv, lawEnv] at h

/-- `Pt { x: 5.0, tags: vec!["a"], w: None }` -/
def exPtVal : Val := .struct [.f64 5, .seq [.str ['a']], .none]

theorem exPtVal_typed : HasTy exPtEnv (.named 0) exPtVal :=
  show FieldsTy exPtEnv _ _ from ⟨trivial, ⟨⟨trivial, trivial⟩, by decide, by decide⟩, trivial, trivial⟩

theorem exPtVal_exact : JsonExact exPtEnv (.named 0) exPtVal := by
  simp only [JsonExact, exPtVal, Holds]
  refine ⟨by simp [JsonNodeOk], ?_⟩
  show HoldsFields exPtEnv _ _ _ _ [_, _, _] _
  simp [HoldsFields, HoldsAll, Holds, JsonNodeOk, finite64]

/-- C94: JSON → RON. -/
example : Decodes (fun n => deserializeRon exPtEnv toyFloat n (.named 0) (chars "(x:5.0,tags:[\"a\",],)")) exPtVal := by
  obtain ⟨s, h⟩ := Out.isOk_spec (r := deserializeJson exPtEnv toyFloat 40 (.named 0) (chars "{\"tags\":[\"a\"],\"x\":5.0}")) (v := exPtVal)
    (by decide +kernel)
  exact C94_json_to_ron (chk := true) toyFloat_laws (lawEnv_lawful _ _) exPtEnv_distinct exPtEnv_ok exPtEnv_ron exPtEnv_jsonSane rfl
    (fun i vars h => by cases exPtEnv_def h) (by decide +kernel) h
    (by simp only [exPtVal, Val.floatsFinite, floatsFiniteAll]; exact ⟨by decide, ⟨trivial, trivial⟩, trivial, trivial⟩)
    (by decide +kernel)

/-- C94: bytes → JSON and RON. -/
example : Decodes (fun n => deserializeJson exPtEnv toyFloat n (.named 0) (chars "{\"x\":5.0,\"tags\":[\"a\"]}")) exPtVal ∧
    Decodes (fun n => deserializeRon exPtEnv toyFloat n (.named 0) (chars "(x:5.0,tags:[\"a\",],)")) exPtVal := by
  have hb := C01_bin_round_trip_exact (chk := true) (lawEnv_lawful _ _) (fun i vars h => by cases exPtEnv_def h) (.named 0) exPtVal
    exPtVal_typed (Holds.mono (Q := fun _ w => ∀ s n, w = .time s n → 0 ≤ s) (dflt := fun f => f.tyDefault) (fun _ _ h => h.2.2.2.1) _ _
      (show Holds exPtEnv (JsonNodeOk exPtEnv) (fun f => f.tyDefault) false (.named 0) exPtVal from exPtVal_exact)) (by decide +kernel)
  obtain ⟨n, hb⟩ := hb
  have hb := hb n (Nat.le_refl n)
  have hl : (serializeBin exPtEnv (.named 0) exPtVal).length ≤ isizeMax := by decide +kernel
  exact ⟨C94_bin_to_json (chk' := true) toyFloat_laws (lawEnv_lawful _ _) exPtEnv_sane exPtEnv_ok hl hb exPtVal_exact (by decide +kernel),
    C94_bin_to_ron (chk' := true) toyFloat_laws (lawEnv_lawful _ _) exPtEnv_sane exPtEnv_ron hl hb
      (JsonExact.ron rfl (fun i vars h => by cases exPtEnv_def h) exPtVal_typed exPtVal_exact) (by decide +kernel)⟩

/-- `struct S { #[nserde(skip, default = 7)] cache: u64 }`. -/
noncomputable def exSkip7 : Env :=
  lawEnv [.struct [{ name := ['c'], ty := .int .u64, skip := true, dfltAttr := some (.int 7), tyDefault := .int 0 }] false false] []

/-- **C94** (why the defaults of skipped fields must agree): text readers give a skipped field the default of
its attribute, the binary reader gives it `Default::default()`. -/
theorem C94_skip_default_differs :
    Decodes (fun n => deserializeJson exSkip7 toyFloat n (.named 0) (chars "{}")) (.struct [.int 7]) ∧
    Decodes (fun n => deserializeRon exSkip7 toyFloat n (.named 0) (chars "()")) (.struct [.int 7]) ∧
    serializeBin exSkip7 (.named 0) (.struct [.int 7]) = [] ∧
    Returns (fun n => deserializeBin exSkip7 chk n (.named 0) []) (.ok (.struct [.int 0]) 0) :=
  ⟨json_ok 9 _ (by decide +kernel), ron_ok 9 _ (by decide +kernel), by decide +kernel,
    deBin_returns (n := 9) (by cases chk <;> with_unfolding_all rfl) (by simp)⟩

end NS
