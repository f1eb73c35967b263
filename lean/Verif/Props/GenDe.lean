import Verif.Lemmas.JsonRun
import Verif.Lemmas.RonSim
import Verif.Lemmas.GenReadDe
import Verif.Props.GenWrite

/-!
# C75–C77: the generated readers

`deriveDe fmt d` is the body of the method the macro generates for the parsed item `d`, as a program; `body.run` is
what it does to the state of the reader and what it returns.
-/

namespace NS
open Derive

/-! ## Examples -/

theorem exNames_dflt : exNames.Dflt := fun _ => rfl

theorem exGen_readable (fmt : Fmt) : exGen.Readable fmt := by
  show List.Pairwise _ ["a".toList, "b".toList, "c".toList]
  decide

theorem exGenT_readable (fmt : Fmt) : exGenT.Readable fmt := by
  refine ⟨fun _ => ?_, fun _ => by simp⟩
  intro f hf
  simp only [List.mem_cons, List.not_mem_nil, or_false] at hf
  rcases hf with rfl | rfl <;> decide

theorem exEnumDecl_readable (fmt : Fmt) : exEnumDecl.Readable fmt := by
  refine ⟨?_, fun _ => by decide, ?_⟩
  · show List.Pairwise _ ["A".toList, "B".toList, "C".toList, "D".toList]
    decide
  · intro v hv
    simp only [exEnumDecl, List.mem_cons, List.not_mem_nil, or_false] at hv
    rcases hv with rfl | rfl | rfl | rfl
    · trivial
    · trivial
    · show List.Pairwise _ ["x".toList]; decide
    · trivial

theorem exProxyFits (d : Def) (os : List ROpt) (t : RTy)
    (h : ∀ p, firstVal "proxy".toList os = some p → p = "Q".toList) : ProxyFits (exGenEnv d) exNames os t := by
  intro p hp
  rw [h p hp]
  exact ⟨_, rfl, rfl⟩

theorem exGen_proxies (d : Def) : exGen.ProxiesFit (exGenEnv d) exNames := by
  intro f hf
  refine exProxyFits d _ _ ?_
  simp only [List.mem_cons, List.not_mem_nil, or_false] at hf
  rcases hf with rfl | rfl | rfl
  · intro p hp; exact absurd hp (by rw [show firstVal _ _ = none by decide]; simp)
  · intro p hp; rw [show firstVal _ _ = some "Q".toList by decide] at hp; exact (Option.some.inj hp).symm
  · intro p hp; exact absurd hp (by rw [show firstVal _ _ = none by decide]; simp)

theorem exGenT_proxies (d : Def) : exGenT.ProxiesFit (exGenEnv d) exNames := by
  intro f hf
  refine exProxyFits d _ _ ?_
  simp only [List.mem_cons, List.not_mem_nil, or_false] at hf
  rcases hf with rfl | rfl
  · intro p hp; exact absurd hp (by rw [show firstVal _ _ = none by decide]; simp)
  · intro p hp; rw [show firstVal _ _ = some "Q".toList by decide] at hp; exact (Option.some.inj hp).symm

theorem exEnumDecl_proxies (d : Def) : exEnumDecl.ProxiesFit (exGenEnv d) exNames := by
  intro v hv
  simp only [exEnumDecl, List.mem_cons, List.not_mem_nil, or_false] at hv
  rcases hv with rfl | rfl | rfl | rfl
  · trivial
  · trivial
  · intro f hf
    simp only [List.mem_cons, List.not_mem_nil, or_false] at hf
    subst hf
    exact exProxyFits d _ _ fun p hp => absurd hp (by rw [show firstVal _ _ = none by decide]; simp)
  · trivial

theorem enum_defs {N : Names} {fmt : Fmt} {e : REnum} {p : PEnum} (hv : Matching VariantRead e.variants p.variants) :
    allSome (p.variants.map (elabVariant N fmt)) = some (e.variants.map (RVariant.toDef N fmt)) := by
  have := elabEnum_read N fmt hv
  rw [elabData, Option.map_eq_some_iff] at this
  obtain ⟨vars, h1, h2⟩ := this
  cases h2
  exact h1

/-- A generated JSON reader run on a whole text, as `deserialize_json` runs it. -/
theorem exRunJson {m : PM Val} {env : Env} {fl : FloatOps} {n : Nat} {t : Ty} {txt : List Char} {v : Val}
    (h : m = deJson env fl n t) (hv : (deserializeJson env fl n t txt).isOk v = true) :
    ∃ st, (jNext fl >>= fun _ => m : PM Val) (initSt jcol txt) = .ok v st := by
  subst h; exact Out.isOk_spec hv

theorem exRunRon {m : PM Val} {env : Env} {fl : FloatOps} {n : Nat} {t : Ty} {txt : List Char} {v : Val}
    (h : m = deRon env fl n t) (hv : (deserializeRon env fl n t txt).isOk v = true) :
    ∃ st, (rNext fl >>= fun _ => m : PM Val) (initSt rcol txt) = .ok v st := by
  subst h; exact Out.isOk_spec hv

theorem via_de {toks : List TT} {fmt : Fmt} {Q : RProg → Prop} (hn : ∀ d, Parses toks d → itemProxy d = none)
    (h : ∃ d body, Parses toks d ∧ genDe fmt d = some body ∧ Q body) :
    ∃ d body, Parses toks d ∧ deriveDe fmt d = some body ∧ Q body := by
  obtain ⟨d, body, h1, h2, h3⟩ := h
  exact ⟨d, body, h1, by rw [deriveDe, hn d h1]; exact h2, h3⟩

/-! ## C75 the generated binary reader -/

/-- **C75**: the `de_bin` generated for a struct is the reader of the declared type: the same result, the same
offset, the same error, on all data. -/
theorem C75_gen_bin_struct_reader (N : Names) (hN : N.Dflt) (s : RStruct) (h : s.WF) (hno : firstVal "proxy".toList (optsOf s.attrs) = none) (hr : s.Readable .bin) :
    ∃ d body, Parses s.toks d ∧ deriveDe .bin d = some body ∧
      ∀ (env : Env) (i : Nat), env.defs[i]? = some (s.toDef N .bin) → s.ProxiesFit env N →
        ∀ (chk : Bool) (data : List Byte) (n : Nat),
          body.run (binR env N s.target chk data n) = deBin env chk data (n + 1) (.named i) := by
  refine via_de (struct_no_proxy h hno) ?_
  obtain ⟨p, hp, _, ha, hb, _⟩ := C58_derive_struct_read s h
  have hdef := elabStruct_read N .bin ha hb
  unfold BodyRead at hb
  unfold RStruct.Readable at hr
  cases hbo : s.body with
  | named fs tr =>
    rw [hbo] at hb hr
    refine ⟨.struct p, genDeBinStruct p, hp, by simp only [genDe, hb.1], fun env i hd hpx chk data n => ?_⟩
    unfold RStruct.ProxiesFit at hpx
    rw [hbo] at hpx
    rw [de_bin_named (kind := some true) ?_ (by rw [read_names hb.2]; exact hr) ?_ hN]
    · rw [← hdef] at hd
      simp only [deBin, hd, elabStruct, if_pos hb.1]
    · rw [RStruct.target, hbo, if_pos (show selfPath = ["Self".toList] ∨ selfPath = [s.name] from Or.inl rfl), read_fieldTys hb.2]
    · intro f hf
      obtain ⟨r, hr, hrr⟩ := matching_mem hb.2 f hf
      exact read_proxyRd hrr (hpx r hr)
  | tuple fs tr =>
    rw [hbo] at hb hr
    have hsk : ∀ f ∈ p.fields, attrsSkip f.attributes = false := by
      intro f hf
      obtain ⟨r, hr', hrr⟩ := matching_mem hb.2 f hf
      rw [hrr.1, words, attrsSkip, attrFlag_words]
      exact hr.1 rfl r hr'
    obtain ⟨body, hbody⟩ : ∃ body, genDeBinTuple p = some body :=
      ⟨_, by rw [genDeBinTuple, if_neg]; simp only [List.any_eq_true, not_exists, not_and]; intro f hf; rw [hsk f hf]; simp⟩
    refine ⟨.struct p, body, hp, by simp only [genDe, hb.1]; exact hbody, fun env i hd hpx chk data n => ?_⟩
    unfold RStruct.ProxiesFit at hpx
    rw [hbo] at hpx
    obtain ⟨body', h1, h2⟩ := de_bin_tuple (env := env) (N := N) (T := s.target) (chk := chk) (d := data) (n := n) (p := p) (kind := some false)
      (by rw [RStruct.target, hbo, if_pos (show selfPath = ["Self".toList] ∨ selfPath = [s.name] from Or.inl rfl), read_compTys hb.2]) hsk
      (fun f hf => by
        obtain ⟨r, hr, hrr⟩ := matching_mem hb.2 f hf
        exact read_tproxyRd hrr (hpx r hr))
    rw [hbody] at h1
    cases h1
    rw [← hdef] at hd
    rw [h2]
    simp only [deBin, hd, elabStruct, if_neg (show ¬ p.named = true by rw [hb.1]; decide)]
  | unit =>
    rw [hbo] at hb hr
    have hsk : ∀ f ∈ p.fields, attrsSkip f.attributes = false := by rw [hb.2]; simp
    obtain ⟨body, hbody⟩ : ∃ body, genDeBinTuple p = some body :=
      ⟨_, by rw [genDeBinTuple, if_neg]; simp only [List.any_eq_true, not_exists, not_and]; intro f hf; rw [hsk f hf]; simp⟩
    refine ⟨.struct p, body, hp, by simp only [genDe, hb.1]; exact hbody, fun env i hd hpx chk data n => ?_⟩
    obtain ⟨body', h1, h2⟩ := de_bin_tuple (env := env) (N := N) (T := s.target) (chk := chk) (d := data) (n := n) (p := p) (kind := none)
      (by rw [RStruct.target, hbo, if_pos (show selfPath = ["Self".toList] ∨ selfPath = [s.name] from Or.inl rfl), hb.2]; rfl) hsk (by rw [hb.2]; simp)
    rw [hbody] at h1
    cases h1
    rw [← hdef] at hd
    rw [h2]
    simp only [deBin, hd, elabStruct, if_neg (show ¬ p.named = true by rw [hb.1]; decide)]

/-- The example structs meet the hypotheses; the reader undoes what `C72` wrote. -/
example : ∃ d body, Parses exGen.toks d ∧ deriveDe .bin d = some body ∧
    body.run (binR (exGenEnv (exGen.toDef exNames .bin)) exNames exGen.target true [1, 5, 8, 9] 5) 0 = .ok (.struct exGenVals) 3 := by
  obtain ⟨d, body, h1, h2, h3⟩ := C75_gen_bin_struct_reader exNames exNames_dflt exGen exGen_wf rfl (exGen_readable _)
  exact ⟨d, body, h1, h2, (congrFun (h3 _ 0 rfl (exGen_proxies _) true [1, 5, 8, 9] 5) 0).trans rfl⟩

example : ∃ d body, Parses exGenT.toks d ∧ deriveDe .bin d = some body ∧
    body.run (binR (exGenEnv (exGenT.toDef exNames .bin)) exNames exGenT.target true [5, 8] 5) 0 = .ok (.struct exGenTVals) 2 := by
  obtain ⟨d, body, h1, h2, h3⟩ := C75_gen_bin_struct_reader exNames exNames_dflt exGenT exGenT_wf rfl (exGenT_readable _)
  exact ⟨d, body, h1, h2, (congrFun (h3 _ 0 rfl (exGenT_proxies _) true [5, 8] 5) 0).trans rfl⟩

/-- **C75**: the `de_bin` generated for an enum is the reader of the declared type. -/
theorem C75_gen_bin_enum_reader (N : Names) (e : REnum) (h : e.WF) (hr : e.Readable .bin) :
    ∃ d body, Parses e.toks d ∧ deriveDe .bin d = some body ∧
      ∀ (env : Env) (i : Nat), env.defs[i]? = some (e.toDef N .bin) →
        ∀ (chk : Bool) (data : List Byte) (n : Nat),
          body.run (binR env N e.target chk data n) = deBin env chk data (n + 1) (.named i) := by
  refine via_de (enum_no_proxy h) ?_
  obtain ⟨p, hp, hnm, hv, _⟩ := C59_derive_enum_read e h
  obtain ⟨body, h1, h2⟩ := de_bin_enum (T := e.target) (enum_defs (N := N) hv) (by rw [← matching_length hv]; exact hr.2.1 rfl)
    (fun j w hj => by obtain ⟨t, h1, _, h3⟩ := read_vtargets hv hnm hr.1 j w hj; exact ⟨t, h1, h3⟩)
    (read_vdistinct hv hr.2.2)
  refine ⟨.enum p, body, hp, h1, fun env i hd chk data n => ?_⟩
  rw [h2]
  simp only [deBin, hd]
  rfl

example : ∃ d body, Parses exEnumDecl.toks d ∧ deriveDe .bin d = some body ∧
    body.run (binR (exGenEnv (exEnumDecl.toDef exNames .bin)) exNames exEnumDecl.target true [2, 0, 5] 5) 0 = .ok (.variant 2 [.int 5]) 3 := by
  obtain ⟨d, body, h1, h2, h3⟩ := C75_gen_bin_enum_reader exNames exEnumDecl exEnumDecl_wf (exEnumDecl_readable _)
  exact ⟨d, body, h1, h2, (congrFun (h3 _ 0 rfl true [2, 0, 5] 5) 0).trans rfl⟩

/-! ## C76 the generated JSON reader -/

/-- **C76**: the `de_json` generated for a struct is the reader of the declared type: the same result, the same
state, the same error with the same position, in every state. -/
theorem C76_gen_json_struct_reader (N : Names) (hN : N.Dflt) (s : RStruct) (h : s.WF) (hno : firstVal "proxy".toList (optsOf s.attrs) = none) (hr : s.Readable .json) :
    ∃ d body, Parses s.toks d ∧ deriveDe .json d = some body ∧
      ∀ (env : Env) (i : Nat), env.defs[i]? = some (s.toDef N .json) → s.ProxiesFit env N →
        ∀ (fl : FloatOps) (n : Nat),
          body.run (jsonR env N s.target fl n) = deJson env fl (n + 1) (.named i) := by
  refine via_de (struct_no_proxy h hno) ?_
  obtain ⟨p, hp, hnm, ha, hb, _⟩ := C58_derive_struct_read s h
  have hdef := elabStruct_read N .json ha hb
  unfold BodyRead at hb
  unfold RStruct.Readable at hr
  cases hbo : s.body with
  | named fs tr =>
    rw [hbo] at hb hr
    refine ⟨.struct p, genDeJsonStruct p, hp, by simp only [genDe, hb.1], fun env i hd hpx fl n => ?_⟩
    unfold RStruct.ProxiesFit at hpx
    rw [hbo] at hpx
    rw [genDeJsonStruct]
    show RBlock.run _ _ = _
    rw [de_json_named (kind := some true) (build := .struct) ?_ (by rw [read_names hb.2]; exact hr) ?_ hN]
    · rw [← hdef] at hd
      simp only [deJson, hd, elabStruct, if_pos hb.1]
    · rw [hnm, RStruct.target, hbo, if_pos (show [(some s.name).getD []] = ["Self".toList] ∨ [(some s.name).getD []] = [s.name] from Or.inr rfl), read_fieldTys hb.2]
    · intro f hf
      obtain ⟨r, hr, hrr⟩ := matching_mem hb.2 f hf
      exact read_proxyRd hrr (hpx r hr)
  | tuple fs tr =>
    rw [hbo] at hb hr
    refine ⟨.struct p, genDeJsonTuple p, hp, by simp only [genDe, hb.1], fun env i hd hpx fl n => ?_⟩
    rw [de_json_tuple ?_ (by rw [RStruct.target, hbo, if_pos (show selfPath = ["Self".toList] ∨ selfPath = [s.name] from Or.inl rfl), read_compTys hb.2])]
    · rw [← hdef] at hd
      simp only [deJson, hd, elabStruct, if_neg (show ¬ p.named = true by rw [hb.1]; decide)]
    · intro h0
      have := matching_length hb.2
      rw [h0] at this
      exact hr.2 rfl (List.length_eq_zero_iff.1 this)
  | unit =>
    rw [hbo] at hb hr
    refine ⟨.struct p, genDeJsonTuple p, hp, by simp only [genDe, hb.1], fun env i hd hpx fl n => ?_⟩
    rw [de_json_unit hb.2 (by rw [RStruct.target, hbo, if_pos (show selfPath = ["Self".toList] ∨ selfPath = [s.name] from Or.inl rfl)])]
    rw [← hdef] at hd
    simp only [deJson, hd, elabStruct, if_neg (show ¬ p.named = true by rw [hb.1]; decide)]

example : ∃ d body, Parses exGen.toks d ∧ deriveDe .json d = some body ∧
    ∃ st, (jNext toyFloat >>= fun _ => body.run (jsonR (exGenEnv (exGen.toDef exNames .json)) exNames exGen.target toyFloat 19) : PM Val)
      (initSt jcol "{\"b\":8,\"z\":[1],\"k\":5}".toList) = .ok (.struct exGenVals) st := by
  obtain ⟨d, body, h1, h2, h3⟩ := C76_gen_json_struct_reader exNames exNames_dflt exGen exGen_wf rfl (exGen_readable _)
  exact ⟨d, body, h1, h2, exRunJson (h3 _ 0 rfl (exGen_proxies _) toyFloat 19) (by decide +kernel)⟩

example : ∃ d body, Parses exGenT.toks d ∧ deriveDe .json d = some body ∧
    ∃ st, (jNext toyFloat >>= fun _ => body.run (jsonR (exGenEnv (exGenT.toDef exNames .json)) exNames exGenT.target toyFloat 19) : PM Val)
      (initSt jcol "[5, 8]".toList) = .ok (.struct exGenTVals) st := by
  obtain ⟨d, body, h1, h2, h3⟩ := C76_gen_json_struct_reader exNames exNames_dflt exGenT exGenT_wf rfl (exGenT_readable _)
  exact ⟨d, body, h1, h2, exRunJson (h3 _ 0 rfl (exGenT_proxies _) toyFloat 19) (by decide +kernel)⟩

/-- **C76**: the `de_json` generated for an enum is the reader of the declared type. -/
theorem C76_gen_json_enum_reader (N : Names) (hN : N.Dflt) (e : REnum) (h : e.WF) (hr : e.Readable .json) :
    ∃ d body, Parses e.toks d ∧ deriveDe .json d = some body ∧
      ∀ (env : Env) (i : Nat), env.defs[i]? = some (e.toDef N .json) → e.ProxiesFit env N →
        ∀ (fl : FloatOps) (n : Nat),
          body.run (jsonR env N e.target fl n) = deJson env fl (n + 1) (.named i) := by
  refine via_de (enum_no_proxy h) ?_
  obtain ⟨p, hp, hnm, hv, _⟩ := C59_derive_enum_read e h
  obtain ⟨body, h1, h2⟩ := de_json_enum (T := e.target) (enum_defs (N := N) hv)
    (fun j w hj => by obtain ⟨t, h1, _, h3⟩ := read_vtargets hv hnm hr.1 j w hj; exact ⟨t, h1, h3⟩) hN
  refine ⟨.enum p, body, hp, h1, fun env i hd hpx fl n => ?_⟩
  rw [h2 env fl n fun w hw s hs => ⟨read_vdistinct hv hr.2.2 w hw s hs, read_vproxies hv hpx w hw s hs⟩, deJson, hd]
  rfl

example : ∃ d body, Parses exEnumDecl.toks d ∧ deriveDe .json d = some body ∧
    ∃ st, (jNext toyFloat >>= fun _ => body.run (jsonR (exGenEnv (exEnumDecl.toDef exNames .json)) exNames exEnumDecl.target toyFloat 19) : PM Val)
      (initSt jcol "{\"C\":{\"x\":5}}".toList) = .ok (.variant 2 [.int 5]) st := by
  obtain ⟨d, body, h1, h2, h3⟩ := C76_gen_json_enum_reader exNames exNames_dflt exEnumDecl exEnumDecl_wf (exEnumDecl_readable _)
  exact ⟨d, body, h1, h2, exRunJson (h3 _ 0 rfl (exEnumDecl_proxies _) toyFloat 19) (by decide +kernel)⟩

/-! ## C77 the generated RON reader -/

/-- **C77**: the `de_ron` generated for a struct is the reader of the declared type. -/
theorem C77_gen_ron_struct_reader (N : Names) (hN : N.Dflt) (s : RStruct) (h : s.WF) (hno : firstVal "proxy".toList (optsOf s.attrs) = none) (hr : s.Readable .ron) :
    ∃ d body, Parses s.toks d ∧ deriveDe .ron d = some body ∧
      ∀ (env : Env) (i : Nat), env.defs[i]? = some (s.toDef N .ron) →
        ∀ (fl : FloatOps) (n : Nat),
          body.run (ronR env N s.target fl n) = deRon env fl (n + 1) (.named i) := by
  refine via_de (struct_no_proxy h hno) ?_
  obtain ⟨p, hp, hnm, ha, hb, _⟩ := C58_derive_struct_read s h
  have hdef := elabStruct_read N .ron ha hb
  unfold BodyRead at hb
  unfold RStruct.Readable at hr
  cases hbo : s.body with
  | named fs tr =>
    rw [hbo] at hb hr
    refine ⟨.struct p, genDeRonStruct p, hp, by simp only [genDe, hb.1], fun env i hd fl n => ?_⟩
    rw [genDeRonStruct]
    show RBlock.run _ _ = _
    rw [de_ron_named (kind := some true) (build := .struct) ?_ (by rw [read_names hb.2]; exact hr) hN]
    · rw [← hdef] at hd
      simp only [deRon, hd, elabStruct, if_pos hb.1, Bool.or_false]
    · rw [hnm, RStruct.target, hbo, if_pos (show [(some s.name).getD []] = ["Self".toList] ∨ [(some s.name).getD []] = [s.name] from Or.inr rfl), read_fieldTys hb.2]
  | tuple fs tr =>
    rw [hbo] at hb hr
    refine ⟨.struct p, genDeRonTuple p, hp, by simp only [genDe, hb.1], fun env i hd fl n => ?_⟩
    rw [de_ron_tuple (by rw [RStruct.target, hbo, if_pos (show selfPath = ["Self".toList] ∨ selfPath = [s.name] from Or.inl rfl), read_compTys hb.2])]
    rw [← hdef] at hd
    simp only [deRon, hd, elabStruct, if_neg (show ¬ p.named = true by rw [hb.1]; decide)]
  | unit => rw [hbo] at hr; exact absurd rfl hr

/-- `struct K { #[nserde(rename = "k")] a: Option<u8>, #[nserde(skip)] c: u8 }`. -/
def exGenK : RStruct where
  name := "K".toList
  body := .named
    [{ attrs := [.nserde .paren [.val "rename".toList (.str "k".toList)]],
       name := "a".toList, ty := .path false ["Option".toList] [word "u8"] },
     { attrs := [.nserde .paren [.flag "skip".toList]], name := "c".toList, ty := word "u8" }] true

theorem exGenK_wf : exGenK.WF := by
  refine ⟨by simp [exGenK], ⟨by simp [exGenK], by simp [exGenK], by simp [exGenK]⟩, ?_, trivial⟩
  intro f hf
  simp only [List.mem_cons, List.not_mem_nil, or_false] at hf
  rcases hf with rfl | rfl
  · exact ⟨exAttr_wf _ trivial, by decide, ex_segs _ (by decide) (by decide) (by decide), exWord_wf "u8" (by simp), trivial⟩
  · exact ⟨exAttr_wf _ trivial, by decide, exWord_wf "u8" (by simp)⟩

example : ∃ d body, Parses exGenK.toks d ∧ deriveDe .ron d = some body ∧
    ∃ st, (rNext toyFloat >>= fun _ => body.run (ronR (exGenEnv (exGenK.toDef exNames .ron)) exNames exGenK.target toyFloat 19) : PM Val)
      (initSt rcol "(k:5,)".toList) = .ok (.struct [.some (.int 5), .int 0]) st := by
  obtain ⟨d, body, h1, h2, h3⟩ := C77_gen_ron_struct_reader exNames exNames_dflt exGenK exGenK_wf rfl
    (by show List.Pairwise _ ["a".toList, "c".toList]; decide)
  exact ⟨d, body, h1, h2, exRunRon (h3 _ 0 rfl toyFloat 19) (by decide +kernel)⟩

/-- **C77**: the `de_ron` generated for an enum is the reader of the declared type. -/
theorem C77_gen_ron_enum_reader (N : Names) (hN : N.Dflt) (e : REnum) (h : e.WF) (hr : e.Readable .ron) :
    ∃ d body, Parses e.toks d ∧ deriveDe .ron d = some body ∧
      ∀ (env : Env) (i : Nat), env.defs[i]? = some (e.toDef N .ron) →
        ∀ (fl : FloatOps) (n : Nat),
          body.run (ronR env N e.target fl n) = deRon env fl (n + 1) (.named i) := by
  refine via_de (enum_no_proxy h) ?_
  obtain ⟨p, hp, hnm, hv, _⟩ := C59_derive_enum_read e h
  obtain ⟨body, h1, h2⟩ := de_ron_enum (T := e.target) (enum_defs (N := N) hv) (read_vtargets hv hnm hr.1) hN (read_vdistinct hv hr.2.2)
  refine ⟨.enum p, body, hp, h1, fun env i hd fl n => ?_⟩
  rw [h2 env fl n, deRon, hd]
  rfl

example : ∃ d body, Parses exEnumDecl.toks d ∧ deriveDe .ron d = some body ∧
    ∃ st, (rNext toyFloat >>= fun _ => body.run (ronR (exGenEnv (exEnumDecl.toDef exNames .ron)) exNames exEnumDecl.target toyFloat 19) : PM Val)
      (initSt rcol "B(5,\"hi\")".toList) = .ok (.variant 1 [.int 5, .str "hi".toList]) st := by
  obtain ⟨d, body, h1, h2, h3⟩ := C77_gen_ron_enum_reader exNames exNames_dflt exEnumDecl exEnumDecl_wf (exEnumDecl_readable _)
  exact ⟨d, body, h1, h2, exRunRon (h3 _ 0 rfl toyFloat 19) (by decide +kernel)⟩

end NS
