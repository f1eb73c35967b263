import Verif.Lemmas.GenDeText

/-!
# The generated JSON readers, for parsed items
-/

namespace NS.Derive
open NS

/-- What is done with a value read for the field `f`. -/
def jsonConv (env : Env) (N : Names) (f : PField) (v : Val) : Val :=
  match attrsProxy f.attributes with
  | none => v
  | some p =>
    match env.proxies[N.proxy f.ty.full p]? with
    | some px =>
      if f.ty.base = "Option".toList then .some (.prox (px.back v) (px.into (px.back v)))
      else .prox (px.back v) (px.into (px.back v))
    | none => v

/-- The type at which the field is read. -/
def jsonAt (f : PField) : Bool × Txt :=
  match attrsProxy f.attributes with
  | none => (false, f.ty.full)
  | some p => (true, p)

variable {env : Env} {N : Names} {T : List Txt → Option RTarget} {fl : FloatOps} {n : Nat}

theorem json_conv {f : PField} (hp : ProxyRd env N f) (v : Val) :
    (proxified f).apply (jsonR env N T fl n) f.ty.full v = some (jsonConv env N f v) := by
  unfold proxified jsonConv
  cases h : attrsProxy f.attributes with
  | none => rfl
  | some p =>
    obtain ⟨px, h1, _⟩ := hp p h
    simp only [h1]
    by_cases ho : f.ty.base = "Option".toList
    · rw [if_pos ho, if_pos ho]
      show ((env.proxies[N.proxy f.ty.full p]?).map _).map _ = _
      rw [h1]; rfl
    · rw [if_neg ho, if_neg ho]
      show (env.proxies[N.proxy f.ty.full p]?).map _ = _
      rw [h1]; rfl

theorem json_read {f : PField} (hp : ProxyRd env N f) :
    deField (deJson env fl n) (elabField N .json f) =
      (jsonR env N T fl n).call (jsonAt f).1 (jsonAt f).2 >>= fun v => pure (jsonConv env N f v) := by
  have hc : (elabField N .json f).optProxy = decide (Fmt.json = .json ∧ f.ty.base = "Option".toList ∧ (attrsProxy f.attributes).isSome) := rfl
  have ht : (elabField N .json f).ty = elabTy N .json f := rfl
  unfold deField jsonAt jsonConv
  rw [hc, ht]
  unfold elabTy
  cases h : attrsProxy f.attributes with
  | none =>
    simp only [Option.isSome_none, Bool.false_eq_true, and_false, decide_false]
    show deJson env fl n (N.ty f.ty.full) = deJson env fl n (N.ty f.ty.full) >>= fun v => pure v
    simp
  | some p =>
    obtain ⟨px, h1, h2⟩ := hp p h
    by_cases ho : f.ty.base = "Option".toList
    · have hdec : decide (Fmt.json = .json ∧ f.ty.base = "Option".toList ∧ (some p).isSome = true) = true :=
        decide_eq_true ⟨rfl, ho, rfl⟩
      rw [hdec]
      simp only [if_pos ho, h1]
      cases n with
      | zero => rfl
      | succ m =>
        show (deJson env fl (m + 1) (.proxied _) >>= _) = (deJson env fl m (N.ty p) >>= _)
        rw [deJson, h1]
        simp only [h2, bind_assoc, pure_bind]
    · have hdec : decide (Fmt.json = .json ∧ f.ty.base = "Option".toList ∧ (some p).isSome = true) = false :=
        decide_eq_false fun hh => ho hh.2.1
      rw [hdec]
      simp only [if_neg ho, h1]
      cases n with
      | zero => rfl
      | succ m =>
        show deJson env fl (m + 1) (.proxied _) = (deJson env fl m (N.ty p) >>= _)
        rw [deJson, h1]
        simp only [h2]

theorem annotation_none (x : Txt) (rest : List RStmt) (hr : annotation x rest = none) : ∀ (fs : List PField),
    annotation x (fs.map (fun f => .letNone (localVar f) none) ++ rest) = none := by
  intro fs
  induction fs with
  | nil => exact hr
  | cons f fs ih =>
    rw [List.map_cons, List.cons_append, annotation, ih]
    simp

theorem json_wants_self {cd : Bool} {f : PField} (hs : attrsSkip f.attributes = false) :
    (genDeJsonUnwrap cd f).wants (localVar f) f.ty.full = some (jsonAt f) := by
  have key : (if localVar f = localVar f then
      some (match proxified f with
        | .id => (false, f.ty.full)
        | .from_ p => (true, p)
        | .someFrom p => (true, p)) else none) = some (jsonAt f) := by
    rw [if_pos rfl]
    unfold proxified jsonAt
    cases attrsProxy f.attributes with
    | none => rfl
    | some p =>
      by_cases ho : f.ty.base = "Option".toList
      · simp only [if_pos ho]
      · simp only [if_neg ho]
  unfold genDeJsonUnwrap
  rw [if_neg (by rw [hs]; simp)]
  split
  · split <;> exact key
  · exact key

theorem json_wants_other {cd : Bool} {f : PField} {x t : Txt} (hx : localVar f ≠ x) :
    (genDeJsonUnwrap cd f).wants x t = none := by
  unfold genDeJsonUnwrap
  split
  · rfl
  · split
    · split <;> exact if_neg hx
    · exact if_neg hx

theorem json_tyOf {path : List Txt} {kind : Option Bool} {build : List Val → Val} {cd : Bool} {fields : List PField}
    (ht : T path = some ⟨kind, fields.map fun f => (f.nm, f.ty.full), build⟩) (hd : (fields.map PField.nm).Pairwise (· ≠ ·))
    {f : PField} (hf : f ∈ fields) (hs : attrsSkip f.attributes = false) :
    (genDeJsonNamed path cd fields).tyOf (jsonR env N T fl n) (localVar f) = some (jsonAt f) := by
  unfold RBlock.tyOf genDeJsonNamed
  simp only
  rw [annotation_none _ _ rfl]
  simp only
  unfold RCons.infer
  have ht' : (jsonR env N T fl n).target path = some ⟨kind, fields.map fun f => (f.nm, f.ty.full), build⟩ := ht
  simp only [ht']
  apply findSome_unique
  · refine ⟨_, List.mem_map_of_mem hf, ?_⟩
    simp only [lookup_field PField.nm (fun f => f.ty.full) fields hd f hf, Option.bind_some]
    exact json_wants_self hs
  · intro b hb
    obtain ⟨g, hg, rfl⟩ := List.mem_map.1 hb
    simp only [lookup_field PField.nm (fun f => f.ty.full) fields hd g hg, Option.bind_some]
    by_cases he : g.nm = f.nm
    · right
      obtain ⟨i, hi⟩ := List.mem_iff_getElem?.1 hf
      obtain ⟨j, hj⟩ := List.mem_iff_getElem?.1 hg
      have := nm_at hd hi hj he.symm
      subst this
      rw [hi] at hj
      cases hj
      exact json_wants_self hs
    · left
      exact json_wants_other fun e => he (localVar_inj e)

theorem elab_find {fmt : Fmt} {fields : List PField} (k : Txt) :
    findField (fields.map (elabField N fmt)) k =
      fields.findIdx? fun f => !attrsSkip f.attributes && ((attrsRename f.attributes).getD f.nm == k) := by
  unfold findField
  rw [List.findIdx?_map]
  rfl

theorem json_member {path : List Txt} {kind : Option Bool} {build : List Val → Val} {cd : Bool} {fields : List PField}
    (ht : T path = some ⟨kind, fields.map fun f => (f.nm, f.ty.full), build⟩) (hd : (fields.map PField.nm).Pairwise (· ≠ ·))
    (hp : ∀ f ∈ fields, ProxyRd env N f) {L : Locals} {acc : List (Option Val)}
    (h : Sim false (jsonConv env N) fields L acc) :
    Same (Sim false (jsonConv env N) fields)
      (runMember (jsonR env N T fl n) ((genDeJsonNamed path cd fields).tyOf (jsonR env N T fl n))
        (if fields.isEmpty then none else
           some ((fields.filter fun f => !attrsSkip f.attributes).map fun f =>
               ((attrsRename f.attributes).getD f.nm, [RBase.op .nextColon, .setSome (localVar f)]),
             [.op .nextColon, .op .wholeField]))
        [.op .eatCommaCurly] L)
      (jMember (jNext fl) n (deJson env fl n) (fields.map (elabField N .json)) acc) := by
  unfold runMember jMember
  refine Same.bind fun st => ?_
  refine Same.seq (R := Sim false (jsonConv env N) fields) ?_ fun L' acc' h' => ?_
  · unfold jMemberValue
    cases hf : fields with
    | nil => subst hf; exact Same.pure h
    | cons x xs =>
      rw [← hf]
      have hne : fields.isEmpty = false := by rw [hf]; rfl
      rw [hne, show (fields.map (elabField N .json)).isEmpty = false by rw [hf]; rfl]
      simp only [Bool.false_eq_true, if_false]
      unfold runKeyArms
      simp only
      rw [lookup_find, find_filter, find_at, elab_find]
      show Same _ (runBases _ _ ((Option.map _ ((fields.findIdx? fun f => !attrsSkip f.attributes &&
        ((attrsRename f.attributes).getD f.nm == st.strbuf)).bind _)).getD _) L) _
      cases hi : (fields.findIdx? fun f => !attrsSkip f.attributes && ((attrsRename f.attributes).getD f.nm == st.strbuf)) with
      | none =>
        simp only [Option.bind_none, Option.map_none, Option.getD_none]
        intro δ k k' hk
        simp only [runBases, RBase.run, bind_assoc, pure_bind]
        show (nextColon (jNext fl) >>= fun _ => wholeField (jNext fl) n >>= fun _ => k L) = _
        rw [hk L acc h]
      | some i =>
        obtain ⟨hlt, hq, _⟩ := List.findIdx?_eq_some_iff_getElem.1 hi
        have hg : fields[i]? = some fields[i] := List.getElem?_eq_getElem hlt
        generalize hF : fields[i] = f at hg hq
        have hs : attrsSkip f.attributes = false := by
          simp only [Bool.and_eq_true] at hq
          simpa using hq.1
        have hm := List.mem_of_getElem? hg
        simp only [Option.bind_some, hg, Option.map_some, Option.getD_some]
        intro δ k k' hk
        obtain ⟨o, ho⟩ := h.has f hm (Or.inl hs)
        simp only [runBases, RBase.run, bind_assoc, pure_bind, json_tyOf ht hd hm hs, ho]
        rw [show (fields.map (elabField N .json)).getD i { name := [], ty := .unit } = elabField N .json f by
          rw [List.getD_eq_getElem?_getD, List.getElem?_map, hg]; rfl,
          json_read (T := T) (hp f hm)]
        simp only [bind_assoc, pure_bind]
        show (nextColon (jNext fl) >>= _) = _
        congr 1
        funext _
        congr 1
        funext v
        exact hk _ _ (h.set hd hg hs v)
  · intro δ k k' hk
    simp only [runBases, RBase.run, bind_assoc, pure_bind]
    show (eatCommaCurly (jNext fl) >>= fun _ => k L') = _
    rw [hk L' acc' h']

theorem json_unwraps {cd : Bool} {all : List PField} {L : Locals} {acc : List (Option Val)}
    (h : Sim false (jsonConv env N) all L acc) (hN : N.Dflt) : ∀ (fs : List PField), (∀ f ∈ fs, f ∈ all ∧ ProxyRd env N f) →
    eachM (fun f => (genDeJsonUnwrap cd f).run (jsonR env N T fl n) L f.ty.full) fs =
      unwrapFields cd (fs.map (elabField N .json)) (fs.map fun f => if attrsSkip f.attributes then none else
        ((L.lookup (localVar f)).join).map (jsonConv env N f)) := by
  intro fs
  induction fs with
  | nil => intro _; rfl
  | cons f fs ih =>
    intro hm
    rw [eachM, List.map_cons, List.map_cons, unwrap_cons, ih fun g hg => hm g (List.mem_cons_of_mem _ hg)]
    congr 1
    obtain ⟨hfa, hp⟩ := hm f (List.mem_cons_self ..)
    have hsk : (elabField N .json f).skip = attrsSkip f.attributes := rfl
    have hop : (elabField N .json f).optSyn = decide (f.ty.base = "Option".toList) := rfl
    have hda : (elabField N .json f).dfltAttr = (jsonDefault f).map (N.expr f.ty.full) := rfl
    have htd : (elabField N .json f).tyDefault = N.dflt f.ty.full := rfl
    have hnm : (elabField N .json f).name = f.nm := rfl
    unfold unwrapOne
    rw [hsk, hop, hda, htd, hnm]
    unfold genDeJsonUnwrap
    cases hs : attrsSkip f.attributes with
    | true =>
      simp only [if_true, Bool.true_or]
      show (pure (N.expr f.ty.full _) : PM Val) = _
      cases jsonDefault f with
      | none => show (pure (N.expr f.ty.full dfltText) : PM Val) = pure (N.dflt f.ty.full); rw [show N.expr f.ty.full dfltText = _ from hN _]
      | some d => rfl
    | false =>
      simp only [Bool.false_eq_true, if_false, Bool.false_or]
      obtain ⟨o, ho⟩ := h.has f hfa (Or.inl hs)
      rw [ho]
      have hsome : ((jsonDefault f).map (N.expr f.ty.full)).isSome = (jsonDefault f).isSome := by simp
      rw [hsome]
      by_cases hc : (decide (f.ty.base = "Option".toList) || cd || (jsonDefault f).isSome) = true
      · rw [if_pos hc]
        cases hj : jsonDefault f with
        | none =>
          cases o with
          | some v => simp only [RInit.run, ho, json_conv hp]; rfl
          | none => simp only [RInit.run, ho]; rw [hj] at hc; rw [show (Option.join (some (none : Option Val))).map (jsonConv env N f) = none from rfl]; simp only; rw [if_pos (by exact hc)]; rfl
        | some d =>
          cases o with
          | some v => simp only [RInit.run, ho, json_conv hp]; rfl
          | none => simp only [RInit.run, ho]; rw [hj] at hc; rw [show (Option.join (some (none : Option Val))).map (jsonConv env N f) = none from rfl]; simp only; rw [if_pos (by exact hc)]; rfl
      · rw [if_neg hc]
        cases o with
        | some v => simp only [RInit.run, ho, json_conv hp]; rfl
        | none => simp only [RInit.run, ho]; rw [show (Option.join (some (none : Option Val))).map (jsonConv env N f) = none from rfl]; simp only; rw [if_neg hc]; rfl

theorem de_json_named {path : List Txt} {kind : Option Bool} {build : List Val → Val} {cd : Bool} {fields : List PField}
    (ht : T path = some ⟨kind, fields.map fun f => (f.nm, f.ty.full), build⟩) (hd : (fields.map PField.nm).Pairwise (· ≠ ·))
    (hp : ∀ f ∈ fields, ProxyRd env N f) (hN : N.Dflt) :
    (genDeJsonNamed path cd fields).run (jsonR env N T fl n) =
      deJsonNamed (jNext fl) n (deJson env fl n) cd (fields.map (elabField N .json)) >>= fun vs => pure (build vs) := by
  have ht' : (jsonR env N T fl n).target path = some ⟨kind, fields.map fun f => (f.nm, f.ty.full), build⟩ := ht
  unfold RBlock.run
  obtain ⟨L0, h1, h2, _⟩ := letNone_run (jsonR env N T fl n) ((genDeJsonNamed path cd fields).tyOf (jsonR env N T fl n)) (fun _ => none)
    [.base (.op .curlyOpen),
       .whileKey (if fields.isEmpty then none else
           some ((fields.filter fun f => !attrsSkip f.attributes).map fun f =>
               ((attrsRename f.attributes).getD f.nm, [RBase.op .nextColon, .setSome (localVar f)]),
             [.op .nextColon, .op .wholeField]))
         [.op .eatCommaCurly],
       .base (.op .curlyClose)] (fields.filter fun f => !attrsSkip f.attributes) []
  have h1' : runStmts (jsonR env N T fl n) ((genDeJsonNamed path cd fields).tyOf (jsonR env N T fl n)) (genDeJsonNamed path cd fields).pre [] = _ := h1
  rw [h1']
  have hsim : Sim false (jsonConv env N) fields L0 ((fields.map (elabField N .json)).map fun _ => none) := by
    refine ⟨?_, fun f hf hs => ?_, fun h => by cases h⟩
    · rw [List.map_map]
      apply List.map_congr_left
      intro f hf
      cases hs : attrsSkip f.attributes with
      | true => rfl
      | false =>
        show none = (L0.lookup (localVar f)).join.map _
        rw [h2 f (List.mem_filter.2 ⟨hf, by simp [hs]⟩)]; rfl
    · rcases hs with hs | hs
      · exact ⟨_, h2 f (List.mem_filter.2 ⟨hf, by simp [hs]⟩)⟩
      · cases hs
  unfold deJsonNamed
  simp only [runStmts, RStmt.run, RBase.run, bind_assoc, pure_bind]
  show (curlyOpen (jNext fl) >>= fun _ => loopM (fun st : PSt => st.tok == .str) _ n L0 >>= fun L => curlyClose (jNext fl) >>= _) = _
  congr 1
  funext _
  refine loop_same (fun L acc h => json_member ht hd hp h) n _ _ hsim _ _ _ fun L acc h => ?_
  congr 1
  funext _
  show ((RCons.lit path (fields.map fun f => (f.nm, genDeJsonUnwrap cd f))).run (jsonR env N T fl n) L >>= fun v => pure () >>= fun _ => pure v) = _
  rw [lit_run PField.nm (fun f => f.ty.full) (genDeJsonUnwrap cd) fields ht' hd, json_unwraps h hN fields fun f hf => ⟨hf, hp f hf⟩, h.acc]
  simp

/-! ## Tuple structs -/

theorem de_json_tuple {p : PStruct} (hn : p.fields ≠ [])
    (ht : T selfPath = some ⟨some false, numbered (fun f : PField => f.ty.full) 0 p.fields, .struct⟩) :
    (genDeJsonTuple p).run (jsonR env N T fl n) =
      deJsonTupleStruct (jNext fl) (deJson env fl n) (p.fields.map (elabTupleTy N .json)) (attrsTransparent p.attributes) := by
  have ht' : (jsonR env N T fl n).target selfPath = _ := ht
  have hsnd : (numbered (fun f : PField => f.ty.full) 0 p.fields).map Prod.snd = p.fields.map fun f => f.ty.full := numbered_snd _ _ _
  have hrun : ∀ (init : RInit) (L : Locals), (RCons.app selfPath (p.fields.map fun _ => init)).run (jsonR env N T fl n) L = _ :=
    fun init L => app_run (fun f : PField => f.ty.full) init p.fields _ ht' hsnd p.fields rfl
  unfold genDeJsonTuple
  cases hf : p.fields with
  | nil => exact absurd hf hn
  | cons f fs =>
    cases fs with
    | nil =>
      have h1 := hrun .call
      rw [hf] at h1
      cases htr : attrsTransparent p.attributes with
      | true =>
        show (RBlock.run _ { e := .app selfPath [.call] }) = _
        show (pure [] >>= fun L => (RCons.app selfPath [.call]).run (jsonR env N T fl n) L >>= fun v => pure () >>= fun _ => pure v) = _
        rw [pure_bind]
        rw [show (RCons.app selfPath [.call]).run (jsonR env N T fl n) [] = _ from h1 []]
        simp only [eachM, bind_assoc, pure_bind]
        rfl
      | false =>
        show (RBlock.run _ { pre := [.base (.op .blockOpen)], e := .app selfPath [.call], post := [.blockClose] }) = _
        show ((blockOpen (jNext fl) >>= fun _ => pure []) >>= fun L => pure L) >>= (fun L => (RCons.app selfPath [.call]).run (jsonR env N T fl n) L >>= fun v =>
          (blockClose (jNext fl) >>= fun _ => pure ()) >>= fun _ => pure v) = _
        simp only [bind_assoc, pure_bind]
        rw [show (RCons.app selfPath [.call]).run (jsonR env N T fl n) [] = _ from h1 []]
        simp only [eachM, bind_assoc, pure_bind]
        rfl
    | cons g gs =>
      have h1 := hrun (.callThen .eatCommaBlock)
      rw [hf] at h1
      rw [if_neg (by simp), if_neg (by simp)]
      simp only [List.length_cons, if_pos (show gs.length + 1 + 1 ≠ 1 by omega)]
      show ((blockOpen (jNext fl) >>= fun _ => pure []) >>= fun L => pure L) >>= (fun L => (RCons.app selfPath _).run (jsonR env N T fl n) L >>= fun v =>
          (blockClose (jNext fl) >>= fun _ => pure ()) >>= fun _ => pure v) = _
      simp only [bind_assoc, pure_bind]
      rw [h1 []]
      rw [← eachM_map (fun t => (RInit.callThen .eatCommaBlock).run (jsonR env N T fl n) [] t) (fun f : PField => f.ty.full), eat_args, List.map_map]
      simp only [bind_assoc, pure_bind]
      rw [List.map_cons, List.map_cons, deJsonTupleStruct]
      · rfl
      all_goals (intros; simp_all)

/-- `struct S;` -/
theorem de_json_unit {p : PStruct} (hn : p.fields = []) (ht : T selfPath = some ⟨none, [], .struct⟩) :
    (genDeJsonTuple p).run (jsonR env N T fl n) =
      deJsonTupleStruct (jNext fl) (deJson env fl n) (p.fields.map (elabTupleTy N .json)) (attrsTransparent p.attributes) := by
  unfold genDeJsonTuple
  rw [hn]
  show ((curlyOpen (jNext fl) >>= fun _ => pure []) >>= fun L => pure L) >>= (fun L => (RCons.unit selfPath).run (jsonR env N T fl n) L >>= fun v =>
          (curlyClose (jNext fl) >>= fun _ => pure ()) >>= fun _ => pure v) = _
  simp only [bind_assoc, pure_bind]
  have : (RCons.unit selfPath).run (jsonR env N T fl n) [] = pure (.struct []) := by
    rw [RCons.run, show (jsonR env N T fl n).target selfPath = _ from ht]
    rfl
  rw [this]
  simp only [pure_bind, List.map_nil, deJsonTupleStruct]

/-! ## Enums -/

theorem de_json_arm {j : Nat} {w : PField} {var : Variant} (hv : elabVariant N .json w = some var) :
    ∃ b, genDeJsonArm w = some (var.isUnit, var.key, b) ∧
      ∀ (env : Env) (T : List Txt → Option RTarget) (fl : FloatOps) (n : Nat) (t : RTarget),
        T (selfVar w.nm) = some t → TargetOf j w t → N.Dflt →
        (∀ s, w.ty.cat = .anonymous s → (s.fields.map PField.nm).Pairwise (· ≠ ·) ∧ ∀ f ∈ s.fields, ProxyRd env N f) →
        b.run (jsonR env N T fl n) =
          deJsonShape (jNext fl) n (deJson env fl n) var.shape >>= fun vs => pure (.variant j vs) := by
  obtain ⟨hn, hr, h⟩ := elabVariant_cases hv
  have hk : var.key = (attrsRename w.attributes).getD w.nm := by rw [Variant.key, hn, hr]
  unfold genDeJsonArm TargetOf
  rw [hk]
  rcases h with ⟨hc, hwr, hs⟩ | ⟨s, hc, hs⟩ | ⟨ts, hc, hs⟩
  · rw [hc, hwr]
    refine ⟨_, by rw [Variant.isUnit, hs], ?_⟩
    intro env T fl n t ht hw _ _
    rw [hs]
    show (pure [] >>= fun L => (RCons.unit _).run (jsonR env N T fl n) L >>= fun v => pure () >>= fun _ => pure v) = _
    rw [pure_bind, RCons.run, show (jsonR env N T fl n).target (selfVar w.nm) = some t from ht]
    simp only [hw.1, if_true, hw.2]
    rfl
  · rw [hc]
    refine ⟨_, by rw [Variant.isUnit, hs], ?_⟩
    intro env T fl n t ht hw hN hd
    rw [hs]
    subst hw
    exact de_json_named ht (hd s rfl).1 (hd s rfl).2 hN
  · rw [hc]
    refine ⟨_, by rw [Variant.isUnit, hs], ?_⟩
    intro env T fl n t ht hw _ _
    rw [hs]
    obtain ⟨k, fs, bd⟩ := t
    obtain ⟨rfl, h2, rfl⟩ := hw
    show ((blockOpen (jNext fl) >>= fun _ => pure []) >>= fun L => pure L) >>= (fun L => (RCons.app _ _).run (jsonR env N T fl n) L >>= fun v =>
          (blockClose (jNext fl) >>= fun _ => pure ()) >>= fun _ => pure v) = _
    simp only [bind_assoc, pure_bind]
    rw [app_run PType.full (.callThen .eatCommaBlock) ts fs (show (jsonR env N T fl n).target _ = _ from ht) h2 ts rfl,
      ← eachM_map (fun t => (RInit.callThen .eatCommaBlock).run (jsonR env N T fl n) [] t) PType.full, eat_args, List.map_map, deJsonShape]
    simp only [bind_assoc, pure_bind]
    rfl

/-- The block of a variant. -/
def jsonBlk (w : PField) : RBlock := ((genDeJsonArm w).map fun a => a.2.2).getD { e := .unit [] }

theorem any_filter {β : Type} (p : β → Bool) (l : List β) : l.any p = !(l.filter p).isEmpty := by
  induction l with
  | nil => rfl
  | cons b bs ih => cases h : p b <;> simp [h, ih]

theorem json_sel {ws : List PField} {V : PField → Variant} {B : PField → RBlock}
    (hrun : ∀ j w, ws[j]? = some w → (B w).run (jsonR env N T fl n) =
      deJsonShape (jNext fl) n (deJson env fl n) (V w).shape >>= fun vs => pure (Val.variant j vs)) :
    runToks (jsonR env N T fl n)
      ((if ((ws.filter fun w => !(V w).isUnit).map fun w => ((V w).key, B w)).isEmpty then [] else
          [(RTok.curlyOpen, { pre := [.curlyOpen, .string, .colon], arms := (ws.filter fun w => !(V w).isUnit).map fun w => ((V w).key, B w),
                              post := [.curlyClose] })]) ++
       (if ((ws.filter fun w => (V w).isUnit).map fun w => ((V w).key, B w)).isEmpty then [] else
          [(RTok.str, { pre := [.string], arms := (ws.filter fun w => (V w).isUnit).map fun w => ((V w).key, B w) })])) =
      deJsonEnum (jNext fl) n (deJson env fl n) (ws.map V) := by
  have hfind : ∀ u k, findVariant (ws.map V) u k = ws.findIdx? fun w => (V w).isUnit == u && ((V w).key == k) := by
    intro u k
    rw [findVariant, List.findIdx?_map]; rfl
  have hany : ∀ p : PField → Bool, (!((ws.filter p).map fun w => ((V w).key, B w)).isEmpty) = ws.any p := by
    intro p
    rw [any_filter, List.isEmpty_map]
  have hA : RSel.run (jsonR env N T fl n)
      { pre := [.curlyOpen, .string, .colon], arms := (ws.filter fun w => !(V w).isUnit).map fun w => ((V w).key, B w), post := [.curlyClose] } =
      (do
        curlyOpen (jNext fl)
        expectTok (jNext fl) .str "String"
        colon (jNext fl)
        let st ← M.get
        match findVariant (ws.map V) false st.strbuf with
        | some j => do
          let vs ← deJsonShape (jNext fl) n (deJson env fl n) ((ws.map V).getD j { name := [], shape := .unit }).shape
          curlyClose (jNext fl)
          pure (.variant j vs)
        | none => errEnum st.strbuf : PM Val) := by
    show ((curlyOpen (jNext fl) >>= fun _ => expectTok (jNext fl) .str "String" >>= fun _ => colon (jNext fl) >>= fun _ => pure ()) >>= fun _ =>
      M.get >>= fun st : PSt => _) = _
    simp only [bind_assoc, pure_bind]
    congr 1; funext _
    congr 1; funext _
    congr 1; funext _
    congr 1; funext st
    rw [arms_lookup, hfind]
    show (match (Option.map B ((ws.findIdx? fun w => !(V w).isUnit && ((V w).key == st.strbuf)).bind _)) with | some b => _ | none => _) = _
    rw [show (fun w => (V w).isUnit == false && ((V w).key == st.strbuf)) = fun w => !(V w).isUnit && ((V w).key == st.strbuf) by
      funext w; cases (V w).isUnit <;> rfl]
    cases hi : ws.findIdx? fun w => !(V w).isUnit && ((V w).key == st.strbuf) with
    | none => rfl
    | some j =>
      obtain ⟨hlt, _, _⟩ := List.findIdx?_eq_some_iff_getElem.1 hi
      have hg : ws[j]? = some ws[j] := List.getElem?_eq_getElem hlt
      simp only [Option.bind_some, hg, Option.map_some, hrun j _ hg, bind_assoc, pure_bind]
      rw [List.getD_eq_getElem?_getD, List.getElem?_map, hg]
      simp only [runOps, bind_assoc, pure_bind]
      rfl
  have hB : RSel.run (jsonR env N T fl n)
      { pre := [.string], arms := (ws.filter fun w => (V w).isUnit).map fun w => ((V w).key, B w) } =
      (do
        expectTok (jNext fl) .str "String"
        let st ← M.get
        match findVariant (ws.map V) true st.strbuf with
        | some j => pure (.variant j [])
        | none => errEnum st.strbuf : PM Val) := by
    show ((expectTok (jNext fl) .str "String" >>= fun _ => pure ()) >>= fun _ => M.get >>= fun st : PSt => _) = _
    simp only [bind_assoc, pure_bind]
    congr 1; funext _
    congr 1; funext st
    rw [arms_lookup, hfind]
    show (match (Option.map B ((ws.findIdx? fun w => (V w).isUnit && ((V w).key == st.strbuf)).bind _)) with | some b => _ | none => _) = _
    rw [show (fun w => (V w).isUnit == true && ((V w).key == st.strbuf)) = fun w => (V w).isUnit && ((V w).key == st.strbuf) by
      funext w; cases (V w).isUnit <;> rfl]
    cases hi : ws.findIdx? fun w => (V w).isUnit && ((V w).key == st.strbuf) with
    | none => rfl
    | some j =>
      obtain ⟨hlt, hq, _⟩ := List.findIdx?_eq_some_iff_getElem.1 hi
      have hg : ws[j]? = some ws[j] := List.getElem?_eq_getElem hlt
      have hu : (V ws[j]).shape = .unit := by
        simp only [Bool.and_eq_true] at hq
        have := hq.1
        unfold Variant.isUnit at this
        split at this
        · assumption
        · cases this
      simp only [Option.bind_some, hg, Option.map_some, hrun j _ hg, hu]
      rfl
  funext st
  have hM : deJsonEnum (jNext fl) n (deJson env fl n) (ws.map V) st = (if st.tok = .curlyOpen ∧ (ws.map V).any (fun v => !v.isUnit) then _
    else if st.tok = .str ∧ (ws.map V).any (fun v => v.isUnit) then _ else _ : PM Val) st := rfl
  rw [hM]
  have h1 : ((ws.map V).any fun v => !v.isUnit) = ws.any fun w => !(V w).isUnit := by rw [List.any_map]; rfl
  have h2 : ((ws.map V).any fun v => v.isUnit) = ws.any fun w => (V w).isUnit := by rw [List.any_map]; rfl
  rw [h1, h2, ← hany fun w => !(V w).isUnit, ← hany fun w => (V w).isUnit]
  have hcons : ∀ (t : RTok) (s : RSel) (as : List (RTok × RSel)), runToks (jsonR env N T fl n) ((t, s) :: as) st =
      if (jsonR env N T fl n).tok t st then s.run (jsonR env N T fl n) st else runToks (jsonR env N T fl n) as st := by
    intro t s as
    show (if (jsonR env N T fl n).tok t st then s.run (jsonR env N T fl n) else runToks (jsonR env N T fl n) as : PM Val) st = _
    split <;> rfl
  have hnil : runToks (jsonR env N T fl n) [] st = errToken "String or {" st := rfl
  have ho : (jsonR env N T fl n).tok .curlyOpen st = (st.tok == Tok.curlyOpen) := rfl
  have hs : (jsonR env N T fl n).tok .str st = (st.tok == Tok.str) := rfl
  cases hr : ((ws.filter fun w => !(V w).isUnit).map fun w => ((V w).key, B w)).isEmpty <;>
    cases hu : ((ws.filter fun w => (V w).isUnit).map fun w => ((V w).key, B w)).isEmpty
  all_goals
    by_cases ht : st.tok = .curlyOpen
    · have hne : ¬ st.tok = .str := by rw [ht]; intro h; cases h
      simp [ht, hne, hcons, ho, hs, hA, hnil] <;> rfl
    · by_cases hts : st.tok = .str
      · simp [hts, hcons, ho, hs, hB, hnil] <;> rfl
      · simp [ht, hts, hcons, ho, hs, hnil] <;> rfl

theorem de_json_enum {e : PEnum} {vars : List Variant} (he : allSome (e.variants.map (elabVariant N .json)) = some vars)
    (hT : ∀ j w, e.variants[j]? = some w → ∃ t, T (selfVar w.nm) = some t ∧ TargetOf j w t) (hN : N.Dflt) :
    ∃ body, genDeJsonEnum e = some body ∧ ∀ (env : Env) (fl : FloatOps) (n : Nat),
      (∀ w ∈ e.variants, ∀ s, w.ty.cat = .anonymous s → (s.fields.map PField.nm).Pairwise (· ≠ ·) ∧ ∀ f ∈ s.fields, ProxyRd env N f) →
      body.run (jsonR env N T fl n) = deJsonEnum (jNext fl) n (deJson env fl n) vars := by
  have hvar : ∀ w ∈ e.variants, elabVariant N .json w = some ((elabVariant N .json w).getD { name := [], shape := .unit }) := by
    intro w hw
    obtain ⟨var, hv⟩ := allSome_none he _ (List.mem_map_of_mem hw)
    rw [hv]; rfl
  have hvars := allSome_eq { name := [], shape := .unit } he
  generalize hV : (fun w => (elabVariant N .json w).getD { name := [], shape := .unit }) = V at hvars
  replace hvar : ∀ w ∈ e.variants, elabVariant N .json w = some (V w) := by intro w hw; rw [← hV]; exact hvar w hw
  have harm : ∀ w ∈ e.variants, genDeJsonArm w = some ((V w).isUnit, (V w).key, jsonBlk w) := by
    intro w hw
    obtain ⟨b, hb, _⟩ := de_json_arm (j := 0) (hvar w hw)
    rw [jsonBlk, hb]; rfl
  refine ⟨_, by rw [genDeJsonEnum, genArms_const, allSome_mapF _ harm]; rfl, ?_⟩
  intro env fl n hd
  rw [hvars, ← json_sel (T := T) (N := N) (B := jsonBlk)]
  · show runToks _ _ = _
    simp only [List.filter_map, List.map_map]
    rfl
  · intro j w hj
    have hw := List.mem_of_getElem? hj
    obtain ⟨b, hb, hrun⟩ := de_json_arm (j := j) (hvar w hw)
    obtain ⟨t, h1, h2⟩ := hT j w hj
    rw [jsonBlk, hb]
    exact hrun env T fl n t h1 h2 hN (hd w hw)

end NS.Derive
