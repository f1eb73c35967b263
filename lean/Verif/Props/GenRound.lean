import Verif.Props.GenDe
import Verif.Props.Bin
import Verif.Props.JsonRound
import Verif.Props.RonRound

/-!
# C78: generated writer and generated reader, together

From the tokens of a declaration: the macro reads them, generates a writer and a reader, and what the writer
writes for a value the reader reads back as that value (up to skipped fields).
-/

namespace NS
open Derive

/-- A reader that is the reader of a type at one more level of fuel decodes what that one decodes. -/
theorem decodes_shift {f g : Nat → Out PErr PSt Val} {v : Val} (h : Decodes g v) (e : ∀ n, f n = g (n + 1)) : Decodes f v := by
  obtain ⟨n₀, h⟩ := h
  exact ⟨n₀, fun n hn => by rw [e]; exact h _ (by omega)⟩

theorem returns_shift {ε σ α : Type} {f g : Nat → Out ε σ α} {r : Out ε σ α} (h : Returns g r) (e : ∀ n, f n = g (n + 1)) : Returns f r := by
  obtain ⟨n₀, h⟩ := h
  exact ⟨n₀, fun n hn => by rw [e]; exact h _ (by omega)⟩

/-! ## Binary -/

/-- **C78**: binary, structs. -/
theorem C78_gen_bin_struct_round_trip (N : Names) (hN : N.Dflt) (s : RStruct) (h : s.WF) (hno : firstVal "proxy".toList (optsOf s.attrs) = none) (hw : s.Writable .bin) (hr : s.Readable .bin) :
    ∃ d w r, Parses s.toks d ∧ deriveSer .bin d = some w ∧ deriveDe .bin d = some r ∧
      ∀ (env : Env) (i : Nat), env.defs[i]? = some (s.toDef N .bin) → s.ProxiesFit env N → LawfulKeys env → EnumsSmall env →
        ∀ vs vs' : List Val, HasTy env (.named i) (.struct vs) → EqUpToSkip env (.named i) (.struct vs) (.struct vs') →
          HasTy env (.named i) (.struct vs') → BinExact env (.named i) (.struct vs') →
          ∃ bytes, w.run (binW env N) (s.value N vs) = some bytes ∧
            ∀ (pre post : List Byte) (chk : Bool), (pre ++ bytes ++ post).length ≤ isizeMax →
              Returns (fun n => r.run (binR env N s.target chk (pre ++ bytes ++ post) n) pre.length) (.ok (.struct vs') (pre ++ bytes).length) := by
  obtain ⟨d, w, h1, h2, h3⟩ := C72_gen_bin_struct_writer N s h hno hw
  obtain ⟨d', r, h1', h2', h3'⟩ := C75_gen_bin_struct_reader N hN s h hno hr
  cases parses_unique h1 h1'
  refine ⟨d, w, r, h1, h2, h2', fun env i hd hp hk hs vs vs' hT hE hT' hX => ⟨_, h3 env i hd vs hT, fun pre post chk hl => ?_⟩⟩
  have e : serializeBin env (.named i) (.struct vs) = serializeBin env (.named i) (.struct vs') := serBin_upToSkip _ _ _ hE
  rw [e] at hl ⊢
  exact returns_shift (C02_bin_embedded (chk := chk) hk hs _ _ hT' hX pre post hl) fun n => congrFun (h3' env i hd hp chk _ n) _

/-- **C78**: binary, enums. -/
theorem C78_gen_bin_enum_round_trip (N : Names) (e : REnum) (h : e.WF) (hw : e.Writable .bin) (hr : e.Readable .bin) :
    ∃ d w r, Parses e.toks d ∧ deriveSer .bin d = some w ∧ deriveDe .bin d = some r ∧
      ∀ (env : Env) (i : Nat), env.defs[i]? = some (e.toDef N .bin) → LawfulKeys env → EnumsSmall env →
        ∀ (j : Nat) (v : RVariant), e.variants[j]? = some v →
        ∀ vs vs' : List Val, HasTy env (.named i) (.variant j vs) → EqUpToSkip env (.named i) (.variant j vs) (.variant j vs') →
          HasTy env (.named i) (.variant j vs') → BinExact env (.named i) (.variant j vs') →
          ∃ bytes, w.run (binW env N) (v.value N vs) = some bytes ∧
            ∀ (pre post : List Byte) (chk : Bool), (pre ++ bytes ++ post).length ≤ isizeMax →
              Returns (fun n => r.run (binR env N e.target chk (pre ++ bytes ++ post) n) pre.length) (.ok (.variant j vs') (pre ++ bytes).length) := by
  obtain ⟨d, w, h1, h2, h3⟩ := C72_gen_bin_enum_writer N e h hw
  obtain ⟨d', r, h1', h2', h3'⟩ := C75_gen_bin_enum_reader N e h hr
  cases parses_unique h1 h1'
  refine ⟨d, w, r, h1, h2, h2', fun env i hd hk hs j v hj vs vs' hT hE hT' hX => ⟨_, h3 env i hd j v hj vs hT, fun pre post chk hl => ?_⟩⟩
  have e : serializeBin env (.named i) (.variant j vs) = serializeBin env (.named i) (.variant j vs') := serBin_upToSkip _ _ _ hE
  rw [e] at hl ⊢
  exact returns_shift (C02_bin_embedded (chk := chk) hk hs _ _ hT' hX pre post hl) fun n => congrFun (h3' env i hd chk _ n) _

/-! ## JSON -/

/-- **C78**: JSON, structs. -/
theorem C78_gen_json_struct_round_trip (N : Names) (hN : N.Dflt) (fl : FloatOps) (hfl : FloatLaws fl) (s : RStruct) (h : s.WF) (hno : firstVal "proxy".toList (optsOf s.attrs) = none)
    (hw : s.Writable .json) (hr : s.Readable .json) :
    ∃ d w r, Parses s.toks d ∧ deriveSer .json d = some w ∧ deriveDe .json d = some r ∧
      ∀ (env : Env) (i : Nat), env.defs[i]? = some (s.toDef N .json) → s.Fits env N → s.ProxiesFit env N → LawfulKeys env → JsonEnvOk env →
        ∀ vs vs' : List Val, HasTy env (.named i) (.struct vs) → SkipEq env false (.named i) (.struct vs) (.struct vs') →
          HasTy env (.named i) (.struct vs') → JsonExact env (.named i) (.struct vs') →
          ∀ txt, w.run (jsonW env N fl) (s.value N vs) = some txt →
            Decodes (fun n => (jNext fl >>= fun _ => r.run (jsonR env N s.target fl n) : PM Val) (initSt jcol txt)) (.struct vs') := by
  obtain ⟨d, w, h1, h2, h3⟩ := C73_gen_json_struct_writer N fl s h hno hw
  obtain ⟨d', r, h1', h2', h3'⟩ := C76_gen_json_struct_reader N hN s h hno hr
  cases parses_unique h1 h1'
  refine ⟨d, w, r, h1, h2, h2', fun env i hd hf hp hk hJ vs vs' hT hE hT' hX txt htxt => ?_⟩
  rw [h3 env i hd hf vs hT] at htxt
  exact decodes_shift (C21_json_roundtrip hk hfl hJ hE hT' hX htxt) fun n => by rw [h3' env i hd hp fl n]; rfl

/-- **C78**: JSON, enums. -/
theorem C78_gen_json_enum_round_trip (N : Names) (hN : N.Dflt) (fl : FloatOps) (hfl : FloatLaws fl) (e : REnum) (h : e.WF)
    (hw : e.Writable .json) (hr : e.Readable .json) :
    ∃ d w r, Parses e.toks d ∧ deriveSer .json d = some w ∧ deriveDe .json d = some r ∧
      ∀ (env : Env) (i : Nat), env.defs[i]? = some (e.toDef N .json) → e.Fits env N → e.ProxiesFit env N → LawfulKeys env → JsonEnvOk env →
        ∀ (j : Nat) (v : RVariant), e.variants[j]? = some v →
        ∀ vs vs' : List Val, HasTy env (.named i) (.variant j vs) → SkipEq env false (.named i) (.variant j vs) (.variant j vs') →
          HasTy env (.named i) (.variant j vs') → JsonExact env (.named i) (.variant j vs') →
          ∀ txt, w.run (jsonW env N fl) (v.value N vs) = some txt →
            Decodes (fun n => (jNext fl >>= fun _ => r.run (jsonR env N e.target fl n) : PM Val) (initSt jcol txt)) (.variant j vs') := by
  obtain ⟨d, w, h1, h2, h3⟩ := C73_gen_json_enum_writer N fl e h hw
  obtain ⟨d', r, h1', h2', h3'⟩ := C76_gen_json_enum_reader N hN e h hr
  cases parses_unique h1 h1'
  refine ⟨d, w, r, h1, h2, h2', fun env i hd hf hp hk hJ j v hj vs vs' hT hE hT' hX txt htxt => ?_⟩
  rw [h3 env i hd hf j v hj vs hT] at htxt
  exact decodes_shift (C21_json_roundtrip hk hfl hJ hE hT' hX htxt) fun n => by rw [h3' env i hd hp fl n]; rfl

/-! ## RON -/

/-- **C78**: RON, structs. -/
theorem C78_gen_ron_struct_round_trip (N : Names) (hN : N.Dflt) (fl : FloatOps) (hfl : FloatLaws fl) (s : RStruct) (h : s.WF) (hno : firstVal "proxy".toList (optsOf s.attrs) = none)
    (hw : s.Writable .ron) (hr : s.Readable .ron) :
    ∃ d w r, Parses s.toks d ∧ deriveSer .ron d = some w ∧ deriveDe .ron d = some r ∧
      ∀ (env : Env) (i : Nat), env.defs[i]? = some (s.toDef N .ron) → s.Fits env N → LawfulKeys env → RonEnvOk env →
        ∀ vs vs' : List Val, HasTy env (.named i) (.struct vs) → SkipEq env false (.named i) (.struct vs) (.struct vs') →
          HasTy env (.named i) (.struct vs') → RonExact env (.named i) (.struct vs') →
          ∀ txt, w.run (ronW env N fl) (s.value N vs) = some txt →
            Decodes (fun n => (rNext fl >>= fun _ => r.run (ronR env N s.target fl n) : PM Val) (initSt rcol txt)) (.struct vs') := by
  obtain ⟨d, w, h1, h2, h3⟩ := C74_gen_ron_struct_writer N fl s h hno hw
  obtain ⟨d', r, h1', h2', h3'⟩ := C77_gen_ron_struct_reader N hN s h hno hr
  cases parses_unique h1 h1'
  refine ⟨d, w, r, h1, h2, h2', fun env i hd hf hk hJ vs vs' hT hE hT' hX txt htxt => ?_⟩
  rw [h3 env i hd hf vs hT] at htxt
  exact decodes_shift (C40_ron_roundtrip hk hfl hJ hE hT' hX htxt) fun n => by rw [h3' env i hd fl n]; rfl

/-- **C78**: RON, enums. -/
theorem C78_gen_ron_enum_round_trip (N : Names) (hN : N.Dflt) (fl : FloatOps) (hfl : FloatLaws fl) (e : REnum) (h : e.WF)
    (hw : e.Writable .ron) (hr : e.Readable .ron) :
    ∃ d w r, Parses e.toks d ∧ deriveSer .ron d = some w ∧ deriveDe .ron d = some r ∧
      ∀ (env : Env) (i : Nat), env.defs[i]? = some (e.toDef N .ron) → e.Fits env N → LawfulKeys env → RonEnvOk env →
        ∀ (j : Nat) (v : RVariant), e.variants[j]? = some v →
        ∀ vs vs' : List Val, HasTy env (.named i) (.variant j vs) → SkipEq env false (.named i) (.variant j vs) (.variant j vs') →
          HasTy env (.named i) (.variant j vs') → RonExact env (.named i) (.variant j vs') →
          ∀ txt, w.run (ronW env N fl) (v.value N vs) = some txt →
            Decodes (fun n => (rNext fl >>= fun _ => r.run (ronR env N e.target fl n) : PM Val) (initSt rcol txt)) (.variant j vs') := by
  obtain ⟨d, w, h1, h2, h3⟩ := C74_gen_ron_enum_writer N fl e h hw
  obtain ⟨d', r, h1', h2', h3'⟩ := C77_gen_ron_enum_reader N hN e h hr
  cases parses_unique h1 h1'
  refine ⟨d, w, r, h1, h2, h2', fun env i hd hf hk hJ j v hj vs vs' hT hE hT' hX txt htxt => ?_⟩
  rw [h3 env i hd hf j v hj vs hT] at htxt
  exact decodes_shift (C40_ron_roundtrip hk hfl hJ hE hT' hX htxt) fun n => by rw [h3' env i hd fl n]; rfl

/-! ## Examples -/

/-- What the names mean. -/
def exNamesK : Names where
  ty := fun t => if t = "Option<u8>".toList then .option (.int .u8) else if t = "String".toList then .str else .int .u8
  proxy := fun _ _ => 0
  expr := fun t _ => if t = "Option<u8>".toList then .none else if t = "String".toList then .str [] else .int 0
  dflt := fun t => if t = "Option<u8>".toList then .none else if t = "String".toList then .str [] else .int 0

/-- The definition of `exGenK`. -/
def exK : Def := .struct
  [ { name := chars "a", ty := .option (.int .u8), rename := some (chars "k"), optSyn := true, tyDefault := .none },
    { name := chars "c", ty := .int .u8, skip := true, tyDefault := .int 0 } ] false false

theorem exGenK_def (fmt : Fmt) : exGenK.toDef exNamesK fmt = exK := by cases fmt <;> rfl

noncomputable def exKEnv : Env := lawEnv [exK] []

theorem exK_defs : exKEnv.defs[0]? = some exK := rfl

theorem exK_hasTy (c : Int) (h : IntKind.u8.inRange c) : HasTy exKEnv (.named 0) (.struct [.some (.int 5), .int c]) := by
  simp [HasTy, exKEnv, lawEnv, exK, FieldsTy, IntKind.inRange, IntKind.lo, IntKind.hi, IntKind.signed, IntKind.bytes] at h ⊢
  exact h

theorem exK_proxies : exGenK.ProxiesFit exKEnv exNamesK := by
  intro f hf
  simp only [List.mem_cons, List.not_mem_nil, or_false] at hf
  rcases hf with rfl | rfl <;>
    exact fun p hp => absurd hp (by rw [show firstVal _ _ = none by decide]; simp)

/-- `K { a: Some(5), c: 9 }`, written and read back by the generated code, is `K { a: Some(5), c: 0 }`. -/
example : ∃ d w r, Parses exGenK.toks d ∧ deriveSer .bin d = some w ∧ deriveDe .bin d = some r ∧
    ∃ bytes, w.run (binW exKEnv exNamesK) (exGenK.value exNamesK [.some (.int 5), .int 9]) = some bytes ∧ bytes = [1, 5] ∧
      Returns (fun n => r.run (binR exKEnv exNamesK exGenK.target true [7, 1, 5, 8] n) 1) (.ok (.struct [.some (.int 5), .int 0]) 3) := by
  obtain ⟨d, w, r, h1, h2, h3, h4⟩ := C78_gen_bin_struct_round_trip exNamesK (fun _ => rfl) exGenK exGenK_wf rfl
    (by show List.Pairwise _ ["a".toList, "c".toList]; decide) (by show List.Pairwise _ ["a".toList, "c".toList]; decide)
  obtain ⟨bytes, h5, h6⟩ := h4 exKEnv 0 (by rw [exGenK_def]; rfl) exK_proxies (lawEnv_lawful _ _)
    (by intro i vars hi; match i with
        | 0 => simp [exKEnv, lawEnv, exK] at hi
        | i + 1 => simp [exKEnv, lawEnv] at hi)
    [.some (.int 5), .int 9] [.some (.int 5), .int 0] (exK_hasTy 9 (by decide))
    (by simp [EqUpToSkip, exKEnv, lawEnv, exK, EqUpToSkipFields]) (exK_hasTy 0 (by decide))
    (by simp [BinExact, Holds, HoldsFields, exKEnv, lawEnv, exK, Field.absent])
  obtain ⟨d', w', h1', h2', h5'⟩ := C72_gen_bin_struct_writer exNamesK exGenK exGenK_wf rfl
    (by show List.Pairwise _ ["a".toList, "c".toList]; decide)
  cases parses_unique h1 h1'
  rw [h2] at h2'
  cases h2'
  have e := h5' exKEnv 0 (by rw [exGenK_def]; rfl) _ (exK_hasTy 9 (by decide))
  rw [h5] at e
  have e2 : serializeBin exKEnv (.named 0) (.struct [.some (.int 5), .int 9]) = [1, 5] := by
    simp [serializeBin, serBin, exKEnv, lawEnv, exK, serBinFields]
    decide
  rw [e2] at e
  cases e
  exact ⟨d, w, r, h1, h2, h3, _, h5, rfl, h6 [7] [8] true (by decide)⟩

theorem exK_fits : exGenK.Fits exKEnv exNamesK := by
  intro f hf
  simp only [List.mem_cons, List.not_mem_nil, or_false] at hf
  rcases hf with rfl | rfl
  · exact ⟨fun _ => ⟨.int .u8, rfl⟩, fun p hp => absurd hp (by rw [show firstVal _ _ = none by decide]; simp)⟩
  · exact ⟨fun h => absurd h (by decide), fun p hp => absurd hp (by rw [show firstVal _ _ = none by decide]; simp)⟩

theorem exK_skipEq : SkipEq exKEnv false (.named 0) (.struct [.some (.int 5), .int 9]) (.struct [.some (.int 5), .int 0]) := by
  simp [SkipEq, exKEnv, lawEnv, exK, SkipEqFields]

theorem exK_jsonOk : JsonEnvOk exKEnv := by
  intro i d h
  match i with
  | 0 =>
    simp [exKEnv, lawEnv] at h; subst h
    constructor
    · intro f hf _; simp at hf; rcases hf with rfl | rfl <;> (unfold PlainName; decide)
    · simp
    · simp
    · simp [Field.absent]
  | i + 1 => simp [exKEnv, lawEnv] at h

theorem exK_ronOk : RonEnvOk exKEnv := by
  intro i d h
  match i with
  | 0 =>
    simp [exKEnv, lawEnv] at h; subst h
    constructor
    · intro f hf _; simp at hf
      rcases hf with rfl | rfl <;> exact ronName_of _ _ _ rfl (by decide) (by decide) (by decide) (by decide)
    · simp [NS.DistinctNames]
    · simp [Field.absentValue]
  | i + 1 => simp [exKEnv, lawEnv] at h

/-- The same with JSON: `{"k":5}`. -/
example : ∃ d w r, Parses exGenK.toks d ∧ deriveSer .json d = some w ∧ deriveDe .json d = some r ∧
    ∀ txt, w.run (jsonW exKEnv exNamesK toyFloat) (exGenK.value exNamesK [.some (.int 5), .int 9]) = some txt →
      Decodes (fun n => (jNext toyFloat >>= fun _ => r.run (jsonR exKEnv exNamesK exGenK.target toyFloat n) : PM Val)
        (initSt jcol txt)) (.struct [.some (.int 5), .int 0]) := by
  obtain ⟨d, w, r, h1, h2, h3, h4⟩ := C78_gen_json_struct_round_trip exNamesK (fun _ => rfl) toyFloat toyFloat_laws exGenK exGenK_wf rfl
    (by show List.Pairwise _ ["a".toList, "c".toList]; decide) (by show List.Pairwise _ ["a".toList, "c".toList]; decide)
  refine ⟨d, w, r, h1, h2, h3, h4 exKEnv 0 (by rw [exGenK_def]; rfl) exK_fits exK_proxies (lawEnv_lawful _ _) exK_jsonOk _ _
    (exK_hasTy 9 (by decide)) exK_skipEq (exK_hasTy 0 (by decide)) ?_⟩
  simp [JsonExact, Holds, HoldsFields, JsonNodeOk, IntKind.textual, exKEnv, lawEnv, exK, Field.absent]
  exact fun h => by cases h

/-- The same with RON: `(k:5,)`. -/
example : ∃ d w r, Parses exGenK.toks d ∧ deriveSer .ron d = some w ∧ deriveDe .ron d = some r ∧
    ∀ txt, w.run (ronW exKEnv exNamesK toyFloat) (exGenK.value exNamesK [.some (.int 5), .int 9]) = some txt →
      Decodes (fun n => (rNext toyFloat >>= fun _ => r.run (ronR exKEnv exNamesK exGenK.target toyFloat n) : PM Val)
        (initSt rcol txt)) (.struct [.some (.int 5), .int 0]) := by
  obtain ⟨d, w, r, h1, h2, h3, h4⟩ := C78_gen_ron_struct_round_trip exNamesK (fun _ => rfl) toyFloat toyFloat_laws exGenK exGenK_wf rfl
    (by show List.Pairwise _ ["a".toList, "c".toList]; decide) (by show List.Pairwise _ ["a".toList, "c".toList]; decide)
  refine ⟨d, w, r, h1, h2, h3, h4 exKEnv 0 (by rw [exGenK_def]; rfl) exK_fits (lawEnv_lawful _ _) exK_ronOk _ _
    (exK_hasTy 9 (by decide)) exK_skipEq (exK_hasTy 0 (by decide)) ?_⟩
  simp [RonExact, Holds, HoldsFields, RonNodeOk, IntKind.textual, exKEnv, lawEnv, exK, Field.absentValue]
  exact fun h => by cases h

/-- The definition of `exEnumDecl`. -/
def exED (fmt : Fmt) : Def := exEnumDecl.toDef exNamesK fmt

noncomputable def exEDEnv (fmt : Fmt) : Env := lawEnv [exED fmt] []

/-- `E::B(5, "hi")`, written and read back. -/
example : ∃ d w r, Parses exEnumDecl.toks d ∧ deriveSer .bin d = some w ∧ deriveDe .bin d = some r ∧
    ∀ v, exEnumDecl.variants[1]? = some v →
    ∃ bytes, w.run (binW (exEDEnv .bin) exNamesK) (v.value exNamesK [.int 5, .str "hi".toList]) = some bytes ∧
      ∀ (pre post : List Byte) (chk : Bool), (pre ++ bytes ++ post).length ≤ isizeMax →
      Returns (fun n => r.run (binR (exEDEnv .bin) exNamesK exEnumDecl.target chk (pre ++ bytes ++ post) n) pre.length)
        (.ok (.variant 1 [.int 5, .str "hi".toList]) (pre ++ bytes).length) := by
  obtain ⟨d, w, r, h1, h2, h3, h4⟩ := C78_gen_bin_enum_round_trip exNamesK exEnumDecl exEnumDecl_wf
    (exEnumDecl_writable _) (exEnumDecl_readable _)
  have hT : HasTy (exEDEnv .bin) (.named 0) (.variant 1 [.int 5, .str "hi".toList]) := ⟨exU8 _ 5 (by decide), (trivial : True), trivial⟩
  refine ⟨d, w, r, h1, h2, h3, fun v hv => h4 (exEDEnv .bin) 0 rfl (lawEnv_lawful _ _) ?_ 1 v hv _ _ hT ⟨rfl, ?_⟩ hT ?_⟩
  · intro i vars hi
    match i with
    | 0 => cases hi; decide
    | i + 1 => simp [exEDEnv, lawEnv] at hi
  · exact ⟨rfl, rfl, trivial⟩
  · have no : ∀ w : Val, (∀ s n, w ≠ .time s n) → ∀ s n, w = .time s n → 0 ≤ s := fun w h s n e => absurd e (h s n)
    exact ⟨no _ (by simp), no (.int 5) (by simp), no (.str _) (by simp), trivial⟩

/-- `E::C { x: 5 }`, in JSON and RON. -/
theorem exED_hasTy (fmt : Fmt) : HasTy (exEDEnv fmt) (.named 0) (.variant 2 [.int 5]) := by
  cases fmt <;> exact ⟨exU8 (exEDEnv .bin) 5 (by decide), trivial⟩

theorem exED_fits (fmt : Fmt) : exEnumDecl.Fits (exEDEnv fmt) exNamesK := by
  intro v hv
  simp only [exEnumDecl, List.mem_cons, List.not_mem_nil, or_false] at hv
  rcases hv with rfl | rfl | rfl | rfl
  · trivial
  · trivial
  · intro f hf
    simp only [List.mem_cons, List.not_mem_nil, or_false] at hf
    subst hf
    exact ⟨fun h => absurd h (by decide), fun p hp => absurd hp (by rw [show firstVal _ _ = none by decide]; simp)⟩
  · trivial

theorem exED_proxies (fmt : Fmt) : exEnumDecl.ProxiesFit (exEDEnv fmt) exNamesK := by
  intro v hv
  simp only [exEnumDecl, List.mem_cons, List.not_mem_nil, or_false] at hv
  rcases hv with rfl | rfl | rfl | rfl
  · trivial
  · trivial
  · intro f hf
    simp only [List.mem_cons, List.not_mem_nil, or_false] at hf
    subst hf
    exact fun p hp => absurd hp (by rw [show firstVal _ _ = none by decide]; simp)
  · trivial

theorem exED_def (fmt : Fmt) (h : fmt ≠ .bin) : exED fmt = .enum
    [ { name := chars "A", rename := some (chars "a"), shape := .unit },
      { name := chars "B", shape := .tuple [.int .u8, .str] },
      { name := chars "C", shape := .named [{ name := chars "x", ty := .int .u8, tyDefault := .int 0 }] },
      { name := chars "D", shape := .unit } ] := by
  cases fmt
  · exact absurd rfl h
  · rfl
  · rfl

theorem exED_jsonOk : JsonEnvOk (exEDEnv .json) := by
  intro i d h
  match i with
  | 0 =>
    simp [exEDEnv, lawEnv, exED_def] at h; subst h
    refine ⟨?_, ?_, ?_⟩
    · intro f hf; simp at hf; rcases hf with rfl | rfl | rfl | rfl <;> (unfold PlainName; decide)
    · simp [Variant.jsonName, chars]
    · intro v hv fs hfs
      simp at hv
      rcases hv with rfl | rfl | rfl | rfl <;> simp at hfs
      subst hfs
      constructor <;> simp [PlainName, chars]
  | i + 1 => simp [exEDEnv, lawEnv] at h

theorem exED_ronOk : RonEnvOk (exEDEnv .ron) := by
  intro i d h
  match i with
  | 0 =>
    simp [exEDEnv, lawEnv, exED_def] at h; subst h
    refine ⟨?_, ?_, ?_⟩
    · intro f hf; simp at hf
      rcases hf with rfl | rfl | rfl | rfl <;> exact ronName_of _ _ _ rfl (by decide) (by decide) (by decide) (by decide)
    · simp [chars]
    · intro v hv fs hfs
      simp at hv
      rcases hv with rfl | rfl | rfl | rfl <;> simp at hfs
      subst hfs
      refine ⟨⟨?_, ?_, ?_⟩, ?_⟩
      · intro f hf _; simp at hf
        subst hf; exact ronName_of _ _ _ rfl (by decide) (by decide) (by decide) (by decide)
      · simp [NS.DistinctNames]
      · simp
      · simp
  | i + 1 => simp [exEDEnv, lawEnv] at h

example : ∃ d w r, Parses exEnumDecl.toks d ∧ deriveSer .json d = some w ∧ deriveDe .json d = some r ∧
    ∀ v, exEnumDecl.variants[2]? = some v →
    ∀ txt, w.run (jsonW (exEDEnv .json) exNamesK toyFloat) (v.value exNamesK [.int 5]) = some txt →
      Decodes (fun n => (jNext toyFloat >>= fun _ => r.run (jsonR (exEDEnv .json) exNamesK exEnumDecl.target toyFloat n) : PM Val)
        (initSt jcol txt)) (.variant 2 [.int 5]) := by
  obtain ⟨d, w, r, h1, h2, h3, h4⟩ := C78_gen_json_enum_round_trip exNamesK (fun _ => rfl) toyFloat toyFloat_laws exEnumDecl
    exEnumDecl_wf (exEnumDecl_writable _) (exEnumDecl_readable _)
  refine ⟨d, w, r, h1, h2, h3, fun v hv => h4 (exEDEnv .json) 0 rfl (exED_fits _) (exED_proxies _) (lawEnv_lawful _ _) exED_jsonOk
    2 v hv _ _ (exED_hasTy _) ?_ (exED_hasTy _) ?_⟩
  · exact ⟨rfl, ⟨.inr rfl, trivial⟩⟩
  · simp [JsonExact, Holds, HoldsFields, JsonNodeOk, IntKind.textual, exEDEnv, lawEnv, exED_def]

example : ∃ d w r, Parses exEnumDecl.toks d ∧ deriveSer .ron d = some w ∧ deriveDe .ron d = some r ∧
    ∀ v, exEnumDecl.variants[2]? = some v →
    ∀ txt, w.run (ronW (exEDEnv .ron) exNamesK toyFloat) (v.value exNamesK [.int 5]) = some txt →
      Decodes (fun n => (rNext toyFloat >>= fun _ => r.run (ronR (exEDEnv .ron) exNamesK exEnumDecl.target toyFloat n) : PM Val)
        (initSt rcol txt)) (.variant 2 [.int 5]) := by
  obtain ⟨d, w, r, h1, h2, h3, h4⟩ := C78_gen_ron_enum_round_trip exNamesK (fun _ => rfl) toyFloat toyFloat_laws exEnumDecl
    exEnumDecl_wf (exEnumDecl_writable _) (exEnumDecl_readable _)
  refine ⟨d, w, r, h1, h2, h3, fun v hv => h4 (exEDEnv .ron) 0 rfl (exED_fits _) (lawEnv_lawful _ _) exED_ronOk
    2 v hv _ _ (exED_hasTy _) ?_ (exED_hasTy _) ?_⟩
  · exact ⟨rfl, ⟨.inr rfl, trivial⟩⟩
  · simp [RonExact, Holds, HoldsFields, RonNodeOk, IntKind.textual, exEDEnv, lawEnv, exED_def]

end NS
