import Verif.Lemmas.GenRead
import Verif.Props.Derive
import Verif.Props.ExamplesText

/-!
# C72–C74: the generated writers

`deriveSer fmt d` is the body of the method the macro generates for the parsed item `d`, as a program; `body.run` is
what this program appends to the output.
-/

namespace NS
open Derive

theorem read_value (N : Names) {s : RStruct} {p : PStruct} (h : BodyRead s.body p) (vs : List Val) (hl : s.body = .unit → vs = []) :
    structSelf N p vs = s.value N vs := by
  unfold structSelf RStruct.value
  unfold BodyRead at h
  cases hb : s.body with
  | unit => rw [hb] at h; rw [h.1, h.2, hl hb]; rfl
  | tuple fs tr =>
    rw [hb] at h
    rw [h.1, if_neg (by decide), read_compVals N (read_tys h.2)]
  | named fs tr =>
    rw [hb] at h
    rw [h.1, if_pos rfl, read_fieldVals N h.2]

/-- A typed struct value, by the kind of the struct. -/
theorem hasTy_struct {env : Env} {N : Names} {fmt : Fmt} {i : Nat} {p : PStruct}
    (hd : env.defs[i]? = some (elabStruct N fmt p)) {vs : List Val} (ht : HasTy env (.named i) (.struct vs)) :
    (p.named = true → FieldsTy env (p.fields.map (elabField N fmt)) vs) ∧
    (p.named = false → TysTy env (p.fields.map (elabTupleTy N fmt)) vs) := by
  rw [HasTy, hd] at ht
  unfold elabStruct at ht
  cases hn : p.named with
  | true => rw [hn, if_pos rfl] at ht; exact ⟨fun _ => ht, fun h => by cases h⟩
  | false => rw [hn, if_neg (by decide)] at ht; exact ⟨fun h => (by cases h), fun _ => ht⟩

theorem matching_length {α β : Type} {R : α → β → Prop} {as : List α} {bs : List β} (h : Matching R as bs) :
    as.length = bs.length := by
  induction h with
  | nil => rfl
  | cons _ _ ih => simp [ih]

theorem unit_vs {env : Env} {ts : List Ty} {vs : List Val} (h : TysTy env ts vs) (h0 : ts = []) : vs = [] := by
  subst h0
  have := tysTy_length h
  exact List.length_eq_zero_iff.1 this.symm

/-! ## Examples

```
struct G { #[nserde(rename = "k")] a: Option<u8>, #[nserde(proxy = "Q")] b: B, #[nserde(skip)] c: u8, }
struct H(u8, #[nserde(proxy = "Q")] B)
enum E { #[nserde(rename = "a")] A, B(u8, String), C { x: T, }, D = 4, }
```
where `B` is converted to the proxy `Q = u8` by adding one. -/

/-- `struct G`. -/
def exGen : RStruct where
  name := "G".toList
  body := .named
    [{ attrs := [.nserde .paren [.val "rename".toList (.str "k".toList)]],
       name := "a".toList, ty := .path false ["Option".toList] [word "u8"] },
     { attrs := [.nserde .paren [.val "proxy".toList (.str "Q".toList)]], name := "b".toList, ty := word "B" },
     { attrs := [.nserde .paren [.flag "skip".toList]], name := "c".toList, ty := word "u8" }] true

/-- `struct H`. -/
def exGenT : RStruct where
  name := "H".toList
  body := .tuple
    [{ ty := word "u8" },
     { attrs := [.nserde .paren [.val "proxy".toList (.str "Q".toList)]], ty := word "B" }] false

/-- What the names mean. -/
def exNames : Names where
  ty := fun t => if t = "Option<u8>".toList then .option (.int .u8)
    else if t = "String".toList then .str else if t = "B".toList then .proxied 0 else .int .u8
  proxy := fun _ _ => 0
  expr := fun _ _ => .int 0
  dflt := fun _ => .int 0

/-- A program with the one type `d`. -/
def exGenEnv (d : Def) : Env where
  defs := [d]
  proxies := [{ ty := .int .u8, into := fun v => match v with | .int n => .int (n + 1) | w => w,
                back := fun v => match v with | .int n => .int (n - 1) | w => w }]
  cmp := fun _ _ => .eq
  keyEq := fun _ _ => false

theorem exWord_wf : ∀ s ∈ ["String", "T", "u8", "B"], (word s).WF := by
  intro s hs
  refine word_wf (ex_segs _ ?_ ?_ ?_) <;>
    (revert s; decide)

/-- One attribute with one option. -/
theorem exAttr_wf (o : ROpt) (h : o.WF) : ∀ a ∈ [RAttr.nserde .paren [o]], a.WF := by
  intro a ha
  simp only [List.mem_cons, List.not_mem_nil, or_false] at ha
  subst ha
  exact ⟨by simp, fun q hq => by
    simp only [List.mem_cons, List.not_mem_nil, or_false] at hq
    subst hq; exact h⟩

theorem exGen_wf : exGen.WF := by
  refine ⟨by simp [exGen], ⟨by simp [exGen], by simp [exGen], by simp [exGen]⟩, ?_, trivial⟩
  intro f hf
  simp only [List.mem_cons, List.not_mem_nil, or_false] at hf
  rcases hf with rfl | rfl | rfl
  · exact ⟨exAttr_wf _ trivial, by decide, ex_segs _ (by decide) (by decide) (by decide), exWord_wf "u8" (by simp), trivial⟩
  · exact ⟨exAttr_wf _ trivial, by decide, exWord_wf "B" (by simp)⟩
  · exact ⟨exAttr_wf _ trivial, by decide, exWord_wf "u8" (by simp)⟩

theorem exGenT_wf : exGenT.WF := by
  refine ⟨by simp [exGenT], ⟨by simp [exGenT], by simp [exGenT], by simp [exGenT]⟩, ?_, ?_⟩
  · intro f hf
    simp only [List.mem_cons, List.not_mem_nil, or_false] at hf
    rcases hf with rfl | rfl
    · exact ⟨by simp, exWord_wf "u8" (by simp), (by decide : "u8".toList ≠ "pub".toList)⟩
    · exact ⟨exAttr_wf _ trivial, exWord_wf "B" (by simp), (by decide : "B".toList ≠ "pub".toList)⟩
  · first | trivial | (intro; rfl) | simp [exGenT]

theorem exGen_writable (fmt : Fmt) : exGen.Writable fmt := by
  show List.Pairwise _ ["a".toList, "b".toList, "c".toList]
  decide

theorem exGenT_writable (fmt : Fmt) : exGenT.Writable fmt := by
  refine ⟨.inr ?_, fun _ => by simp⟩
  intro f hf
  simp only [List.mem_cons, List.not_mem_nil, or_false] at hf
  rcases hf with rfl | rfl <;> decide

theorem exEnumDecl_writable (fmt : Fmt) : exEnumDecl.Writable fmt := by
  refine ⟨?_, fun _ => by decide, ?_⟩
  · show List.Pairwise _ ["A".toList, "B".toList, "C".toList, "D".toList]
    decide
  · intro v hv
    simp only [exEnumDecl, List.mem_cons, List.not_mem_nil, or_false] at hv
    rcases hv with rfl | rfl | rfl | rfl
    · trivial
    · exact .inr (by simp)
    · refine ⟨?_, ?_, fun _ => ?_, fun _ => ?_⟩
      · show List.Pairwise _ ["x".toList]; decide
      · show _ ∉ ["x".toList]; decide
      · show _ ∉ ["x".toList]; decide
      · intro f hf
        simp only [List.mem_cons, List.not_mem_nil, or_false] at hf
        subst hf
        exact .inl rfl
    · trivial

theorem exGen_fits (d : Def) : exGen.Fits (exGenEnv d) exNames := by
  intro f hf
  simp only [List.mem_cons, List.not_mem_nil, or_false] at hf
  rcases hf with rfl | rfl | rfl
  · exact ⟨fun _ => ⟨.int .u8, rfl⟩, fun p _ => ⟨_, rfl⟩⟩
  · exact ⟨fun h => absurd h (by decide), fun p _ => ⟨_, rfl⟩⟩
  · exact ⟨fun h => absurd h (by decide), fun p _ => ⟨_, rfl⟩⟩

theorem exEnumDecl_fits (d : Def) : exEnumDecl.Fits (exGenEnv d) exNames := by
  intro v hv
  simp only [exEnumDecl, List.mem_cons, List.not_mem_nil, or_false] at hv
  rcases hv with rfl | rfl | rfl | rfl
  · trivial
  · trivial
  · intro f hf
    simp only [List.mem_cons, List.not_mem_nil, or_false] at hf
    subst hf
    exact ⟨fun h => absurd h (by decide), fun p _ => ⟨_, rfl⟩⟩
  · trivial

/-- `G { a: Some(5), b: 7, c: 0 }`. -/
def exGenVals : List Val := [.some (.int 5), .prox (.int 7) (.int 8), .int 0]

theorem exU8 (env : Env) (n : Int) (h : IntKind.u8.inRange n) : HasTy env (.int .u8) (.int n) := h

theorem exStr (env : Env) (t : List Char) : HasTy env .str (.str t) := by simp [HasTy]

theorem exGen_hasTy (fmt : Fmt) : HasTy (exGenEnv (exGen.toDef exNames fmt)) (.named 0) (.struct exGenVals) := by
  cases fmt <;>
    exact ⟨exU8 (exGenEnv (.tuple [] false)) 5 (by decide), ⟨exU8 (exGenEnv (.tuple [] false)) 8 (by decide), rfl, rfl⟩, exU8 (exGenEnv (.tuple [] false)) 0 (by decide), trivial⟩

/-- `H(5, 7)`. -/
def exGenTVals : List Val := [.int 5, .prox (.int 7) (.int 8)]

theorem exGenT_hasTy (fmt : Fmt) : HasTy (exGenEnv (exGenT.toDef exNames fmt)) (.named 0) (.struct exGenTVals) := by
  cases fmt <;>
    exact ⟨exU8 _ 5 (by decide), ⟨exU8 _ 8 (by decide), rfl, rfl⟩, trivial⟩

theorem exEnumB_hasTy (fmt : Fmt) :
    HasTy (exGenEnv (exEnumDecl.toDef exNames fmt)) (.named 0) (.variant 1 [.int 5, .str "hi".toList]) := by
  cases fmt <;> exact ⟨exU8 _ 5 (by decide), (trivial : True), trivial⟩

theorem exEnumC_hasTy (fmt : Fmt) :
    HasTy (exGenEnv (exEnumDecl.toDef exNames fmt)) (.named 0) (.variant 2 [.int 5]) := by
  cases fmt <;> exact ⟨exU8 _ 5 (by decide), trivial⟩

/-! ## Container proxies -/

theorem parses_unique {ts : List TT} {d d' : Data} (h : Parses ts d) (h' : Parses ts d') : d = d' := by
  obtain ⟨a, ha⟩ := h
  obtain ⟨b, hb⟩ := h'
  have := (ha (a + b) (by omega)).symm.trans (hb (a + b) (by omega))
  cases this
  rfl

theorem struct_no_proxy {s : RStruct} (h : s.WF) (hno : firstVal "proxy".toList (optsOf s.attrs) = none) :
    ∀ d, Parses s.toks d → itemProxy d = none := by
  intro d hd
  obtain ⟨p, hp, _, hx⟩ := C57_derive_struct_container s h
  rw [parses_unique hd hp, hx, hno]

theorem enum_no_proxy {e : REnum} (h : e.WF) : ∀ d, Parses e.toks d → itemProxy d = none := by
  intro d hd
  obtain ⟨p, hp, _, hx⟩ := C57_derive_enum_container_dropped e h
  rw [parses_unique hd hp, hx]

theorem via_ser {toks : List TT} {fmt : Fmt} {Q : WBody → Prop} (hn : ∀ d, Parses toks d → itemProxy d = none)
    (h : ∃ d body, Parses toks d ∧ genSer fmt d = some body ∧ Q body) :
    ∃ d body, Parses toks d ∧ deriveSer fmt d = some body ∧ Q body := by
  obtain ⟨d, body, h1, h2, h3⟩ := h
  exact ⟨d, body, h1, by rw [deriveSer, hn d h1]; exact h2, h3⟩

/-! ## C72 the generated binary writer -/

/-- **C72**: the `ser_bin` generated for a struct writes the bytes of the declared type. -/
theorem C72_gen_bin_struct_writer (N : Names) (s : RStruct) (h : s.WF) (hno : firstVal "proxy".toList (optsOf s.attrs) = none) (hw : s.Writable .bin) :
    ∃ d body, Parses s.toks d ∧ deriveSer .bin d = some body ∧
      ∀ (env : Env) (i : Nat), env.defs[i]? = some (s.toDef N .bin) →
        ∀ vs : List Val, HasTy env (.named i) (.struct vs) →
          body.run (binW env N) (s.value N vs) = some (serializeBin env (.named i) (.struct vs)) := by
  refine via_ser (struct_no_proxy h hno) ?_
  obtain ⟨p, hp, _, ha, hb, _⟩ := C58_derive_struct_read s h
  have hdef := elabStruct_read N .bin ha hb
  cases hn : p.named with
  | true =>
    refine ⟨.struct p, genSerBinStruct p, hp, by simp only [genSer, hn], fun env i hd vs ht => ?_⟩
    rw [← hdef] at hd
    have ht' := (hasTy_struct hd ht).1 hn
    rw [← read_value N hb vs (fun hu => by rw [hu] at hb; rw [hb.1] at hn; cases hn), bin_named hn ?_ ht']
    · rw [serializeBin, serBin, hd, elabStruct, if_pos hn]
      intro h; cases h
    · unfold BodyRead at hb
      unfold RStruct.Writable at hw
      cases hbo : s.body with
      | unit => rw [hbo] at hb; rw [hb.1] at hn; cases hn
      | tuple => rw [hbo] at hb; rw [hb.1] at hn; cases hn
      | named fs tr => rw [hbo] at hb hw; rw [read_names hb.2]; exact hw
  | false =>
    refine ⟨.struct p, genSerBinTuple p, hp, by simp only [genSer, hn], fun env i hd vs ht => ?_⟩
    rw [← hdef] at hd
    have ht' := (hasTy_struct hd ht).2 hn
    rw [← read_value N hb vs (fun hu => unit_vs ht' (by rw [hu] at hb; rw [hb.2]; rfl)), bin_tuple hn ?_ ht']
    · rw [serializeBin, serBin, hd, elabStruct, if_neg (by rw [hn]; decide)]
      intro h; cases h
    · unfold BodyRead at hb
      unfold RStruct.Writable at hw
      cases hbo : s.body with
      | unit => rw [hbo] at hb; rw [hb.2]; simp
      | tuple fs tr =>
        rw [hbo] at hb hw
        intro f hf
        obtain ⟨r, hr, hrr⟩ := matching_mem hb.2 f hf
        rw [hrr.1, words, attrsSkip, attrFlag_words]
        exact hw.1.resolve_left (by decide) r hr
      | named fs tr => rw [hbo] at hb; rw [hb.1] at hn; cases hn

/-- The example structs meet the hypotheses; the output is what the generated code appends. -/
example : ∃ d body, Parses exGen.toks d ∧ deriveSer .bin d = some body ∧
    body.run (binW (exGenEnv (exGen.toDef exNames .bin)) exNames) (exGen.value exNames exGenVals) = some [1, 5, 8] := by
  obtain ⟨d, body, h1, h2, h3⟩ := C72_gen_bin_struct_writer exNames exGen exGen_wf rfl (exGen_writable _)
  exact ⟨d, body, h1, h2, (h3 _ 0 rfl _ (exGen_hasTy _)).trans (by decide +kernel)⟩

example : ∃ d body, Parses exGenT.toks d ∧ deriveSer .bin d = some body ∧
    body.run (binW (exGenEnv (exGenT.toDef exNames .bin)) exNames) (exGenT.value exNames exGenTVals) = some [5, 8] := by
  obtain ⟨d, body, h1, h2, h3⟩ := C72_gen_bin_struct_writer exNames exGenT exGenT_wf rfl (exGenT_writable _)
  exact ⟨d, body, h1, h2, (h3 _ 0 rfl _ (exGenT_hasTy _)).trans (by decide +kernel)⟩

/-- **C72**: the `ser_bin` generated for an enum writes the bytes of the declared type. -/
theorem C72_gen_bin_enum_writer (N : Names) (e : REnum) (h : e.WF) (hw : e.Writable .bin) :
    ∃ d body, Parses e.toks d ∧ deriveSer .bin d = some body ∧
      ∀ (env : Env) (i : Nat), env.defs[i]? = some (e.toDef N .bin) →
        ∀ (j : Nat) (v : RVariant), e.variants[j]? = some v → ∀ vs : List Val, HasTy env (.named i) (.variant j vs) →
          body.run (binW env N) (v.value N vs) = some (serializeBin env (.named i) (.variant j vs)) := by
  refine via_ser (enum_no_proxy h) ?_
  obtain ⟨p, hp, _, hv, _⟩ := C59_derive_enum_read e h
  have he : allSome (p.variants.map (elabVariant N .bin)) = some (e.variants.map (RVariant.toDef N .bin)) := by
    have := elabEnum_read N .bin hv
    rw [elabData, Option.map_eq_some_iff] at this
    obtain ⟨vars, h1, h2⟩ := this
    cases h2
    exact h1
  obtain ⟨body, h1, h2⟩ := bin_enum he (by rw [← matching_length hv]; exact hw.2.1 rfl) (by rw [read_vnames hv]; exact hw.1)
    (fun w hw' => by
      obtain ⟨v, hv', hr⟩ := matching_mem hv w hw'
      exact read_varOK hr (hw.2.2 v hv'))
  refine ⟨.enum p, body, hp, h1, fun env i hd j v hj vs ht => ?_⟩
  obtain ⟨w, hw', hr⟩ := matching_get hv hj
  rw [← read_vvalue N hr]
  exact h2 env i hd j vs ht w hw'

example : ∃ d body v, Parses exEnumDecl.toks d ∧ deriveSer .bin d = some body ∧ exEnumDecl.variants[1]? = some v ∧
    body.run (binW (exGenEnv (exEnumDecl.toDef exNames .bin)) exNames) (v.value exNames [.int 5, .str "hi".toList]) = some [1, 0, 5, 2, 0, 0, 0, 0, 0, 0, 0, 104, 105] := by
  obtain ⟨d, body, h1, h2, h3⟩ := C72_gen_bin_enum_writer exNames exEnumDecl exEnumDecl_wf (exEnumDecl_writable _)
  exact ⟨d, body, _, h1, h2, rfl, (h3 _ 0 rfl 1 _ rfl _ (exEnumB_hasTy _)).trans (by decide +kernel)⟩

example : ∃ d body v, Parses exEnumDecl.toks d ∧ deriveSer .bin d = some body ∧ exEnumDecl.variants[2]? = some v ∧
    body.run (binW (exGenEnv (exEnumDecl.toDef exNames .bin)) exNames) (v.value exNames [.int 5]) = some [2, 0, 5] := by
  obtain ⟨d, body, h1, h2, h3⟩ := C72_gen_bin_enum_writer exNames exEnumDecl exEnumDecl_wf (exEnumDecl_writable _)
  exact ⟨d, body, _, h1, h2, rfl, (h3 _ 0 rfl 2 _ rfl _ (exEnumC_hasTy _)).trans (by decide +kernel)⟩

/-! ## C73 the generated JSON writer -/

/-- **C73**: the `ser_json` generated for a struct writes the text of the declared type. -/
theorem C73_gen_json_struct_writer (N : Names) (fl : FloatOps) (s : RStruct) (h : s.WF) (hno : firstVal "proxy".toList (optsOf s.attrs) = none) (hw : s.Writable .json) :
    ∃ d body, Parses s.toks d ∧ deriveSer .json d = some body ∧
      ∀ (env : Env) (i : Nat), env.defs[i]? = some (s.toDef N .json) → s.Fits env N →
        ∀ vs : List Val, HasTy env (.named i) (.struct vs) →
          body.run (jsonW env N fl) (s.value N vs) = serializeJson env fl false (.named i) (.struct vs) := by
  refine via_ser (struct_no_proxy h hno) ?_
  obtain ⟨p, hp, _, ha, hb, _⟩ := C58_derive_struct_read s h
  have hdef := elabStruct_read N .json ha hb
  cases hn : p.named with
  | true =>
    refine ⟨.struct p, genSerJsonStruct p, hp, by simp only [genSer, hn], fun env i hd hfit vs ht => ?_⟩
    rw [← hdef] at hd
    have ht' := (hasTy_struct hd ht).1 hn
    unfold RStruct.Writable at hw
    unfold RStruct.Fits at hfit
    have hb' := hb
    unfold BodyRead at hb'
    have key : (p.fields.map PField.nm).Pairwise (· ≠ ·) ∧ ∀ f ∈ p.fields, OptionIs N f ∧ ProxyIs env N f := by
      cases hbo : s.body with
      | unit => rw [hbo] at hb'; rw [hb'.1] at hn; cases hn
      | tuple => rw [hbo] at hb'; rw [hb'.1] at hn; cases hn
      | named fs tr =>
        rw [hbo] at hb' hw hfit
        refine ⟨by rw [read_names hb'.2]; exact hw, fun f hf => ?_⟩
        obtain ⟨r, hr, hrr⟩ := matching_mem hb'.2 f hf
        exact read_fits hrr (hfit r hr)
    rw [← read_value N hb vs (fun hu => by rw [hu] at hb; rw [hb.1] at hn; cases hn),
      json_named hn key.1 ht' (fun f hf => (key.2 f hf).1) (fun f hf => (key.2 f hf).2)]
    rw [serializeJson, if_neg (by simp), serJson, hd, elabStruct, if_pos hn]
    intro h; cases h
  | false =>
    refine ⟨.struct p, genSerJsonTuple p, hp, by simp only [genSer, hn], fun env i hd _ vs ht => ?_⟩
    rw [← hdef] at hd
    have ht' := (hasTy_struct hd ht).2 hn
    rw [← read_value N hb vs (fun hu => unit_vs ht' (by rw [hu] at hb; rw [hb.2]; rfl)), json_tuple hn ht']
    rw [serializeJson, if_neg (by simp : ¬ (false = true ∧ _)), serJson, hd, elabStruct,
      if_neg (show ¬ p.named = true by rw [hn]; decide)]
    intro h; cases h

/-- The example structs meet the hypotheses; the output is what the generated code appends. -/
example : ∃ d body, Parses exGen.toks d ∧ deriveSer .json d = some body ∧
    body.run (jsonW (exGenEnv (exGen.toDef exNames .json)) exNames toyFloat) (exGen.value exNames exGenVals) = some "{\"k\":5,\"b\":8}".toList := by
  obtain ⟨d, body, h1, h2, h3⟩ := C73_gen_json_struct_writer exNames toyFloat exGen exGen_wf rfl (exGen_writable _)
  exact ⟨d, body, h1, h2, (h3 _ 0 rfl (exGen_fits _) _ (exGen_hasTy _)).trans (by decide +kernel)⟩

example : ∃ d body, Parses exGenT.toks d ∧ deriveSer .json d = some body ∧
    body.run (jsonW (exGenEnv (exGenT.toDef exNames .json)) exNames toyFloat) (exGenT.value exNames exGenTVals) = some "[5, 8]".toList := by
  obtain ⟨d, body, h1, h2, h3⟩ := C73_gen_json_struct_writer exNames toyFloat exGenT exGenT_wf rfl (exGenT_writable _)
  exact ⟨d, body, h1, h2, (h3 _ 0 rfl trivial _ (exGenT_hasTy _)).trans (by decide +kernel)⟩

/-- **C73**: the `ser_json` generated for an enum writes the text of the declared type. -/
theorem C73_gen_json_enum_writer (N : Names) (fl : FloatOps) (e : REnum) (h : e.WF) (hw : e.Writable .json) :
    ∃ d body, Parses e.toks d ∧ deriveSer .json d = some body ∧
      ∀ (env : Env) (i : Nat), env.defs[i]? = some (e.toDef N .json) → e.Fits env N →
        ∀ (j : Nat) (v : RVariant), e.variants[j]? = some v → ∀ vs : List Val, HasTy env (.named i) (.variant j vs) →
          body.run (jsonW env N fl) (v.value N vs) = serializeJson env fl false (.named i) (.variant j vs) := by
  refine via_ser (enum_no_proxy h) ?_
  obtain ⟨p, hp, _, hv, _⟩ := C59_derive_enum_read e h
  have he : allSome (p.variants.map (elabVariant N .json)) = some (e.variants.map (RVariant.toDef N .json)) := by
    have := elabEnum_read N .json hv
    rw [elabData, Option.map_eq_some_iff] at this
    obtain ⟨vars, h1, h2⟩ := this
    cases h2
    exact h1
  obtain ⟨body, h1, h2⟩ := json_enum (fl := fl) he (by rw [read_vnames hv]; exact hw.1)
    (fun w hw' => by
      obtain ⟨v, hv', hr⟩ := matching_mem hv w hw'
      exact read_varOK hr (hw.2.2 v hv'))
  refine ⟨.enum p, body, hp, h1, fun env i hd hfit j v hj vs ht => ?_⟩
  obtain ⟨w, hw', hr⟩ := matching_get hv hj
  rw [← read_vvalue N hr, serializeJson, if_neg (by simp)]
  exact h2 env i hd (read_vfits hv hfit) j vs ht w hw'

example : ∃ d body v, Parses exEnumDecl.toks d ∧ deriveSer .json d = some body ∧ exEnumDecl.variants[1]? = some v ∧
    body.run (jsonW (exGenEnv (exEnumDecl.toDef exNames .json)) exNames toyFloat) (v.value exNames [.int 5, .str "hi".toList]) = some "{\"B\":[5,\"hi\"]}".toList := by
  obtain ⟨d, body, h1, h2, h3⟩ := C73_gen_json_enum_writer exNames toyFloat exEnumDecl exEnumDecl_wf (exEnumDecl_writable _)
  exact ⟨d, body, _, h1, h2, rfl, (h3 _ 0 rfl (exEnumDecl_fits _) 1 _ rfl _ (exEnumB_hasTy _)).trans (by decide +kernel)⟩

example : ∃ d body v, Parses exEnumDecl.toks d ∧ deriveSer .json d = some body ∧ exEnumDecl.variants[2]? = some v ∧
    body.run (jsonW (exGenEnv (exEnumDecl.toDef exNames .json)) exNames toyFloat) (v.value exNames [.int 5]) = some "{\"C\":{\"x\":5}}".toList := by
  obtain ⟨d, body, h1, h2, h3⟩ := C73_gen_json_enum_writer exNames toyFloat exEnumDecl exEnumDecl_wf (exEnumDecl_writable _)
  exact ⟨d, body, _, h1, h2, rfl, (h3 _ 0 rfl (exEnumDecl_fits _) 2 _ rfl _ (exEnumC_hasTy _)).trans (by decide +kernel)⟩

/-! ## C74 the generated RON writer -/

/-- **C74**: the `ser_ron` generated for a struct writes the text of the declared type. -/
theorem C74_gen_ron_struct_writer (N : Names) (fl : FloatOps) (s : RStruct) (h : s.WF) (hno : firstVal "proxy".toList (optsOf s.attrs) = none) (hw : s.Writable .ron) :
    ∃ d body, Parses s.toks d ∧ deriveSer .ron d = some body ∧
      ∀ (env : Env) (i : Nat), env.defs[i]? = some (s.toDef N .ron) → s.Fits env N →
        ∀ vs : List Val, HasTy env (.named i) (.struct vs) →
          body.run (ronW env N fl) (s.value N vs) = serializeRon env fl false (.named i) (.struct vs) := by
  refine via_ser (struct_no_proxy h hno) ?_
  obtain ⟨p, hp, _, ha, hb, _⟩ := C58_derive_struct_read s h
  have hdef := elabStruct_read N .ron ha hb
  unfold RStruct.Writable at hw
  have hb' := hb
  unfold BodyRead at hb'
  cases hn : p.named with
  | true =>
    refine ⟨.struct p, genSerRonStruct p, hp, by simp only [genSer, hn], fun env i hd hfit vs ht => ?_⟩
    rw [← hdef] at hd
    have ht' := (hasTy_struct hd ht).1 hn
    unfold RStruct.Fits at hfit
    have key : (p.fields.map PField.nm).Pairwise (· ≠ ·) ∧ ∀ f ∈ p.fields, OptionIs N f ∧ ProxyIs env N f := by
      cases hbo : s.body with
      | unit => rw [hbo] at hb'; rw [hb'.1] at hn; cases hn
      | tuple => rw [hbo] at hb'; rw [hb'.1] at hn; cases hn
      | named fs tr =>
        rw [hbo] at hb' hw hfit
        refine ⟨by rw [read_names hb'.2]; exact hw, fun f hf => ?_⟩
        obtain ⟨r, hr, hrr⟩ := matching_mem hb'.2 f hf
        exact read_fits hrr (hfit r hr)
    rw [← read_value N hb vs (fun hu => by rw [hu] at hb; rw [hb.1] at hn; cases hn),
      ron_named hn key.1 ht' (fun f hf => (key.2 f hf).1)]
    rw [serializeRon, if_neg (by simp), serRon, hd, elabStruct, if_pos hn]
  | false =>
    have key : p.fields ≠ [] ∧ ∀ f ∈ p.fields, attrsSkip f.attributes = false := by
      cases hbo : s.body with
      | unit => rw [hbo] at hw; exact absurd rfl hw
      | tuple fs tr =>
        rw [hbo] at hb' hw
        refine ⟨fun h0 => ?_, fun f hf => ?_⟩
        · have := matching_length hb'.2
          rw [h0] at this
          exact hw.2 rfl (List.length_eq_zero_iff.1 this)
        · obtain ⟨r, hr, hrr⟩ := matching_mem hb'.2 f hf
          rw [hrr.1, words, attrsSkip, attrFlag_words]
          exact hw.1.resolve_left (by decide) r hr
      | named fs tr => rw [hbo] at hb'; rw [hb'.1] at hn; cases hn
    have hgen : ∃ body, genSerRonTuple p = some body := ⟨_, by rw [genSerRonTuple, if_neg (by simpa using key.1)]⟩
    obtain ⟨body, hgen⟩ := hgen
    refine ⟨.struct p, body, hp, by simp only [genSer, hn]; exact hgen, fun env i hd _ vs ht => ?_⟩
    rw [← hdef] at hd
    have ht' := (hasTy_struct hd ht).2 hn
    obtain ⟨body', hg', hrun⟩ := ron_tuple (fl := fl) hn key.1 key.2 ht'
    rw [hgen] at hg'
    cases hg'
    rw [← read_value N hb vs (fun hu => unit_vs ht' (by rw [hu] at hb; rw [hb.2]; rfl)), hrun]
    rw [serializeRon, if_neg (by simp), serRon, hd, elabStruct, if_neg (by rw [hn]; decide)]

/-- The example structs meet the hypotheses; the output is what the generated code appends. -/
example : ∃ d body, Parses exGen.toks d ∧ deriveSer .ron d = some body ∧
    body.run (ronW (exGenEnv (exGen.toDef exNames .ron)) exNames toyFloat) (exGen.value exNames exGenVals) = some "(k:5,b:8,)".toList := by
  obtain ⟨d, body, h1, h2, h3⟩ := C74_gen_ron_struct_writer exNames toyFloat exGen exGen_wf rfl (exGen_writable _)
  exact ⟨d, body, h1, h2, (h3 _ 0 rfl (exGen_fits _) _ (exGen_hasTy _)).trans (by decide +kernel)⟩

example : ∃ d body, Parses exGenT.toks d ∧ deriveSer .ron d = some body ∧
    body.run (ronW (exGenEnv (exGenT.toDef exNames .ron)) exNames toyFloat) (exGenT.value exNames exGenTVals) = some "(5, 8)".toList := by
  obtain ⟨d, body, h1, h2, h3⟩ := C74_gen_ron_struct_writer exNames toyFloat exGenT exGenT_wf rfl (exGenT_writable _)
  exact ⟨d, body, h1, h2, (h3 _ 0 rfl trivial _ (exGenT_hasTy _)).trans (by decide +kernel)⟩

/-- **C74**: the `ser_ron` generated for an enum writes the text of the declared type. -/
theorem C74_gen_ron_enum_writer (N : Names) (fl : FloatOps) (e : REnum) (h : e.WF) (hw : e.Writable .ron) :
    ∃ d body, Parses e.toks d ∧ deriveSer .ron d = some body ∧
      ∀ (env : Env) (i : Nat), env.defs[i]? = some (e.toDef N .ron) → e.Fits env N →
        ∀ (j : Nat) (v : RVariant), e.variants[j]? = some v → ∀ vs : List Val, HasTy env (.named i) (.variant j vs) →
          body.run (ronW env N fl) (v.value N vs) = serializeRon env fl false (.named i) (.variant j vs) := by
  refine via_ser (enum_no_proxy h) ?_
  obtain ⟨p, hp, _, hv, _⟩ := C59_derive_enum_read e h
  have he : allSome (p.variants.map (elabVariant N .ron)) = some (e.variants.map (RVariant.toDef N .ron)) := by
    have := elabEnum_read N .ron hv
    rw [elabData, Option.map_eq_some_iff] at this
    obtain ⟨vars, h1, h2⟩ := this
    cases h2
    exact h1
  obtain ⟨body, h1, h2⟩ := ron_enum (fl := fl) he (by rw [read_vnames hv]; exact hw.1)
    (fun w hw' => by
      obtain ⟨v, hv', hr⟩ := matching_mem hv w hw'
      exact read_varOK hr (hw.2.2 v hv'))
  refine ⟨.enum p, body, hp, h1, fun env i hd hfit j v hj vs ht => ?_⟩
  obtain ⟨w, hw', hr⟩ := matching_get hv hj
  rw [← read_vvalue N hr, serializeRon, if_neg (by simp)]
  exact h2 env i hd (fun w hw s hs f hf => (read_vfits hv hfit w hw s hs f hf).1) j vs ht w hw'

example : ∃ d body v, Parses exEnumDecl.toks d ∧ deriveSer .ron d = some body ∧ exEnumDecl.variants[1]? = some v ∧
    body.run (ronW (exGenEnv (exEnumDecl.toDef exNames .ron)) exNames toyFloat) (v.value exNames [.int 5, .str "hi".toList]) = some "B(5,\"hi\")".toList := by
  obtain ⟨d, body, h1, h2, h3⟩ := C74_gen_ron_enum_writer exNames toyFloat exEnumDecl exEnumDecl_wf (exEnumDecl_writable _)
  exact ⟨d, body, _, h1, h2, rfl, (h3 _ 0 rfl (exEnumDecl_fits _) 1 _ rfl _ (exEnumB_hasTy _)).trans (by decide +kernel)⟩

example : ∃ d body v, Parses exEnumDecl.toks d ∧ deriveSer .ron d = some body ∧ exEnumDecl.variants[2]? = some v ∧
    body.run (ronW (exGenEnv (exEnumDecl.toDef exNames .ron)) exNames toyFloat) (v.value exNames [.int 5]) = some "C(x:5,)".toList := by
  obtain ⟨d, body, h1, h2, h3⟩ := C74_gen_ron_enum_writer exNames toyFloat exEnumDecl exEnumDecl_wf (exEnumDecl_writable _)
  exact ⟨d, body, _, h1, h2, rfl, (h3 _ 0 rfl (exEnumDecl_fits _) 2 _ rfl _ (exEnumC_hasTy _)).trans (by decide +kernel)⟩

end NS
