import Verif.Props.GenRound

/-!
# C79: containers with a proxy

`#[nserde(proxy = "P")]` on a struct: the generated code converts the whole value to `P` and back.
-/

namespace NS
open Derive

/-- The value `v` of the struct `s`, as a whole, as the generated code sees it (`self`), where the type of the
name of the struct is that of values serialized through the proxy `p`. -/
def Derive.RStruct.whole (N : Names) (s : RStruct) (p : List Char) (v : Val) : WSelf :=
  .struct [("self".toList, ⟨s.name, .proxied (N.proxy s.name p), v⟩)]

theorem struct_proxy {s : RStruct} (h : s.WF) {p : List Char} (hp : firstVal "proxy".toList (optsOf s.attrs) = some p) :
    ∃ d, Parses s.toks d ∧ itemProxy d = some p ∧ d.nm = s.name := by
  obtain ⟨q, hq, hnm, ha, _⟩ := C58_derive_struct_read s h
  obtain ⟨q', hq', _, hx⟩ := C57_derive_struct_container s h
  cases parses_unique hq hq'
  exact ⟨_, hq, by rw [hx, hp], by rw [Data.nm, hnm]; rfl⟩

theorem proxy_run {α : Type} (C : WCtx α) {s : RStruct} {p : List Char} {px : Proxy} {o q : Val}
    (hpx : C.env.proxies[C.N.proxy s.name p]? = some px) :
    (genSerProxy p).run C (s.whole C.N p (.prox o q)) = some (C.ser px.ty (px.into o)) := by
  simp [genSerProxy, RStruct.whole, WBody.run, runAll, WStmt.run, WExpr.eval, List.lookup, WCtx.into, hpx, WCtx.sees]

/-- **C79**: the writers generated for a struct with a proxy, whatever its fields, write the proxy of the value. -/
theorem C79_gen_proxy_writer (N : Names) (s : RStruct) (h : s.WF) (p : List Char)
    (hp : firstVal "proxy".toList (optsOf s.attrs) = some p) :
    ∃ d, Parses s.toks d ∧ ∀ fmt, ∃ body, deriveSer fmt d = some body ∧
      ∀ (env : Env) (px : Proxy), env.proxies[N.proxy s.name p]? = some px → ∀ o : Val,
        body.run (binW env N) (s.whole N p (.prox o (px.into o))) = some (serializeBin env px.ty (px.into o)) ∧
        (∀ fl, body.run (jsonW env N fl) (s.whole N p (.prox o (px.into o))) = serializeJson env fl false px.ty (px.into o)) ∧
        (∀ fl, body.run (ronW env N fl) (s.whole N p (.prox o (px.into o))) = serializeRon env fl false px.ty (px.into o)) := by
  obtain ⟨d, hd, hx, _⟩ := struct_proxy h hp
  refine ⟨d, hd, fun fmt => ⟨genSerProxy p, by rw [deriveSer, hx], fun env px hpx o => ⟨?_, fun fl => ?_, fun fl => ?_⟩⟩⟩
  · exact proxy_run (binW env N) hpx
  · exact (proxy_run (jsonW env N fl) hpx).trans (by simp [serializeJson, jsonW])
  · exact (proxy_run (ronW env N fl) hpx).trans (by simp [serializeRon, ronW])

/-- **C79**: the binary and JSON readers generated for a struct with a proxy, whatever its fields, read the proxy
and convert it back; they stop where the reader of the proxy stops and fail where it fails. -/
theorem C79_gen_proxy_reader (N : Names) (s : RStruct) (h : s.WF) (p : List Char)
    (hp : firstVal "proxy".toList (optsOf s.attrs) = some p) :
    ∃ d, Parses s.toks d ∧ (∃ body, deriveDe .bin d = some body ∧
        ∀ (env : Env) (px : Proxy), env.proxies[N.proxy s.name p]? = some px → px.ty = N.ty p →
          ∀ (chk : Bool) (data : List Byte) (n o : Nat), body.run (binR env N s.target chk data (n + 1)) o =
            match deBin env chk data n px.ty o with
            | .ok v o' => .ok (.prox (px.back v) (px.into (px.back v))) o'
            | .err e o' => .err e o'
            | .panic => .panic
            | .oof => .oof) ∧
      (∃ body, deriveDe .json d = some body ∧
        ∀ (env : Env) (px : Proxy), env.proxies[N.proxy s.name p]? = some px → px.ty = N.ty p →
          ∀ (fl : FloatOps) (n : Nat) (st : PSt), body.run (jsonR env N s.target fl (n + 1)) st =
            match deJson env fl n px.ty st with
            | .ok v st' => .ok (.prox (px.back v) (px.into (px.back v))) st'
            | .err e st' => .err e st'
            | .panic => .panic
            | .oof => .oof) := by
  obtain ⟨d, hd, hx, hnm⟩ := struct_proxy h hp
  refine ⟨d, hd, ⟨.proxy d.nm p, by rw [deriveDe, hx]; rfl, fun env px hpx hty chk data n o => ?_⟩,
    ⟨.proxy d.nm p, by rw [deriveDe, hx]; rfl, fun env px hpx hty fl n st => ?_⟩⟩
  · rw [hnm]
    show (deBin env chk data n (N.ty p) >>= fun v => M.ofOption ((binR env N s.target chk data (n + 1)).back s.name p v) : M _ _ _) o = _
    rw [← hty, M.bind_def]
    cases deBin env chk data n px.ty o <;> simp [RCtx.back, binR, hpx, M.ofOption] <;> rfl
  · rw [hnm]
    show (deJson env fl n (N.ty p) >>= fun v => M.ofOption ((jsonR env N s.target fl (n + 1)).back s.name p v) : M _ _ _) st = _
    rw [← hty, M.bind_def]
    cases deJson env fl n px.ty st <;> simp [RCtx.back, jsonR, textR, hpx, M.ofOption] <;> rfl

/-- **C79**: the RON reader generated for a struct with a proxy does not compile. -/
theorem C79_gen_proxy_ron_reader_broken (N : Names) (s : RStruct) (h : s.WF) (p : List Char)
    (hp : firstVal "proxy".toList (optsOf s.attrs) = some p) :
    ∃ d body, Parses s.toks d ∧ deriveDe .ron d = some body ∧
      ∀ (env : Env) (fl : FloatOps) (n : Nat) (st : PSt), body.run (ronR env N s.target fl n) st = .oof := by
  obtain ⟨d, hd, hx, hnm⟩ := struct_proxy h hp
  exact ⟨d, .proxyOfChars p, hd, by rw [deriveDe, hx]; rfl, fun _ _ _ _ => rfl⟩

/-! ## Examples -/

/-- `#[nserde(proxy = "Q")] struct K { .. }`. -/
def exPK : RStruct := { exGenK with attrs := [.nserde .paren [.val "proxy".toList (.str "Q".toList)]] }

theorem exPK_wf : exPK.WF := by
  obtain ⟨_, h2, h3⟩ := exGenK_wf
  exact ⟨exAttr_wf _ trivial, h2, h3⟩

/-- The value 7, whose proxy is 8 (a `u8`), is written as the byte 8, and read back. -/
example : ∃ d, Parses exPK.toks d ∧ ∀ fmt, ∃ body, deriveSer fmt d = some body ∧
    body.run (binW (exGenEnv exK) exNames) (exPK.whole exNames "Q".toList (.prox (.int 7) (.int 8))) = some [8] := by
  obtain ⟨d, h1, h2⟩ := C79_gen_proxy_writer exNames exPK exPK_wf "Q".toList rfl
  refine ⟨d, h1, fun fmt => ?_⟩
  obtain ⟨body, h3, h4⟩ := h2 fmt
  exact ⟨body, h3, (h4 (exGenEnv exK) _ rfl (.int 7)).1⟩

example : ∃ d, Parses exPK.toks d ∧ ∃ body, deriveDe .bin d = some body ∧
    body.run (binR (exGenEnv exK) exNames exPK.target true [8] 3) 0 = .ok (.prox (.int 7) (.int 8)) 1 := by
  obtain ⟨d, h1, ⟨body, h2, h3⟩, _⟩ := C79_gen_proxy_reader exNames exPK exPK_wf "Q".toList rfl
  exact ⟨d, h1, body, h2, (h3 (exGenEnv exK) _ rfl rfl true [8] 2 0).trans rfl⟩

/-- On an enum the option has no effect (`exDProxy` is `exEnumDecl` with a proxy). -/
example : ∃ d body, Parses exDProxy.toks d ∧ deriveSer .bin d = some body ∧
    body.run (binW (exGenEnv (exEnumDecl.toDef exNames .bin)) exNames) (.variant "C".toList (some true)
      [("x".toList, ⟨"T".toList, .int .u8, .int 5⟩)]) = some [2, 0, 5] := by
  have hw : exDProxy.WF := by
    obtain ⟨_, h2, h3⟩ := exEnumDecl_wf
    refine ⟨?_, h2, h3⟩
    intro a ha
    simp only [exDProxy, List.mem_cons, List.not_mem_nil, or_false] at ha
    subst ha
    refine ⟨by simp, fun o ho => ?_⟩
    simp only [List.mem_cons, List.not_mem_nil, or_false] at ho
    rcases ho with rfl | rfl <;> trivial
  obtain ⟨d, body, h1, h2, h3⟩ := C72_gen_bin_enum_writer exNames exDProxy hw (exEnumDecl_writable _)
  exact ⟨d, body, h1, h2, (h3 _ 0 rfl 2 _ rfl [.int 5] (exEnumC_hasTy .bin)).trans rfl⟩

end NS
