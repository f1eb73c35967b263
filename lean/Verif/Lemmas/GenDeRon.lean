import Verif.Lemmas.GenDeJson

/-!
# The generated RON readers, for parsed items
-/

namespace NS.Derive
open NS

variable {env : Env} {N : Names} {T : List Txt → Option RTarget} {fl : FloatOps} {n : Nat}

theorem annotation_some (x t : Txt) (rest : List RStmt) : ∀ (fs : List PField), (∃ f ∈ fs, localVar f = x) →
    (∀ f ∈ fs, localVar f = x → f.ty.full = t) →
    annotation x (fs.map (fun f => .letNone (localVar f) (some f.ty.full)) ++ rest) = some t := by
  intro fs
  induction fs with
  | nil => rintro ⟨f, hf, _⟩ _; simp at hf
  | cons f fs ih =>
    rintro ⟨g, hg, hgx⟩ h
    rw [List.map_cons, List.cons_append, annotation]
    by_cases hx : localVar f = x
    · rw [if_pos hx, h f (List.mem_cons_self ..) hx]
    · rw [if_neg hx]
      refine ih ?_ fun f hf => h f (List.mem_cons_of_mem _ hf)
      rcases List.mem_cons.1 hg with rfl | hg
      · exact absurd hgx hx
      · exact ⟨g, hg, hgx⟩

theorem ron_tyOf {path : List Txt} {as : List Attr} {fields : List PField}
    (hd : (fields.map PField.nm).Pairwise (· ≠ ·)) {f : PField} (hf : f ∈ fields) :
    (genDeRonNamed path fields as).tyOf (ronR env N T fl n) (localVar f) = some (false, f.ty.full) := by
  unfold RBlock.tyOf genDeRonNamed
  simp only
  rw [annotation_some (localVar f) f.ty.full]
  · exact ⟨f, hf, rfl⟩
  · intro g hg he
    obtain ⟨i, hi⟩ := List.mem_iff_getElem?.1 hf
    obtain ⟨j, hj⟩ := List.mem_iff_getElem?.1 hg
    have := nm_at hd hi hj (localVar_inj he).symm
    subst this
    rw [hi] at hj
    cases hj
    rfl

theorem ron_member {path : List Txt} {as : List Attr} {fields : List PField}
    (hd : (fields.map PField.nm).Pairwise (· ≠ ·)) {L : Locals} {acc : List (Option Val)}
    (h : Sim true (fun _ v => v) fields L acc) :
    Same (Sim true (fun _ v => v) fields)
      (runMember (ronR env N T fl n) ((genDeRonNamed path fields as).tyOf (ronR env N T fl n))
        (if fields.isEmpty then none else
           some ((fields.filter fun f => !attrsSkip f.attributes).map fun f =>
               ((attrsRename f.attributes).getD f.nm, [RBase.op .nextColon, .setSome (localVar f)]),
             [.failKey]))
        [.op .eatCommaParen] L)
      (rMember (rNext fl) (deRon env fl n) (fields.map (elabField N .ron)) acc) := by
  unfold runMember rMember
  intro δ k k' hk
  simp only [bind_assoc]
  funext st
  show ((_ : PM Locals) >>= _) st = ((_ : PM (List (Option Val))) >>= _) st
  revert δ k k' hk
  suffices hS : ∀ (δ : Type) (k : Locals → PM δ) (k' : List (Option Val) → PM δ), (∀ a b, Sim true (fun _ v => v) fields a b → k a = k' b) →
      (runKeyArms (ronR env N T fl n) ((genDeRonNamed path fields as).tyOf (ronR env N T fl n))
        (if fields.isEmpty then none else
           some ((fields.filter fun f => !attrsSkip f.attributes).map fun f =>
               ((attrsRename f.attributes).getD f.nm, [RBase.op .nextColon, .setSome (localVar f)]),
             [.failKey])) st.identbuf L >>= k) st = (rMemberValue (rNext fl) (deRon env fl n) (fields.map (elabField N .ron)) acc st.identbuf >>= k') st by
    intro δ k k' hk
    refine hS δ _ _ fun L' acc' h' => ?_
    simp only [runBases, RBase.run, bind_assoc, pure_bind]
    show (eatCommaParen (rNext fl) >>= fun _ => k L') = _
    rw [hk L' acc' h']
  intro δ k k' hk
  unfold rMemberValue
  cases hf : fields with
  | nil => subst hf; show k L st = k' acc st; rw [hk L acc h]
  | cons x xs =>
    rw [← hf]
    have hne : fields.isEmpty = false := by rw [hf]; rfl
    rw [hne, show (fields.map (elabField N .ron)).isEmpty = false by rw [hf]; rfl]
    simp only [Bool.false_eq_true, if_false]
    unfold runKeyArms
    simp only
    rw [lookup_find, find_filter, find_at, elab_find]
    cases hi : (fields.findIdx? fun f => !attrsSkip f.attributes && ((attrsRename f.attributes).getD f.nm == st.identbuf)) with
    | none => rfl
    | some i =>
      obtain ⟨hlt, hq, _⟩ := List.findIdx?_eq_some_iff_getElem.1 hi
      have hg : fields[i]? = some fields[i] := List.getElem?_eq_getElem hlt
      generalize hF : fields[i] = f at hg hq
      have hs : attrsSkip f.attributes = false := by
        simp only [Bool.and_eq_true] at hq
        simpa using hq.1
      have hm := List.mem_of_getElem? hg
      simp only [Option.bind_some, hg, Option.map_some, Option.getD_some]
      obtain ⟨o, ho⟩ := h.has f hm (Or.inl hs)
      simp only [runBases, RBase.run, bind_assoc, pure_bind, ron_tyOf hd hm, ho]
      rw [show (fields.map (elabField N .ron)).getD i { name := [], ty := .unit } = elabField N .ron f by
        rw [List.getD_eq_getElem?_getD, List.getElem?_map, hg]; rfl]
      refine congrFun ?_ st
      show (nextColon (rNext fl) >>= _) = _
      congr 1
      funext _
      show (deRon env fl n (N.ty f.ty.full) >>= _) = (deRon env fl n (elabTy N .ron f) >>= _)
      rw [show elabTy N .ron f = N.ty f.ty.full from rfl]
      congr 1
      funext v
      exact hk _ _ (h.set hd hg hs v)

theorem ron_unwraps {cd : Bool} {all : List PField} {L : Locals} {acc : List (Option Val)}
    (h : Sim true (fun _ v => v) all L acc) (hN : N.Dflt) : ∀ (fs : List PField), (∀ f ∈ fs, f ∈ all) →
    eachM (fun f => (genDeRonUnwrap cd f).run (ronR env N T fl n) L f.ty.full) fs =
      unwrapFields cd (fs.map (elabField N .ron)) (fs.map fun f => if attrsSkip f.attributes then none else
        ((L.lookup (localVar f)).join).map fun v => v) := by
  intro fs
  induction fs with
  | nil => intro _; rfl
  | cons f fs ih =>
    intro hm
    rw [eachM, List.map_cons, List.map_cons, unwrap_cons, ih fun g hg => hm g (List.mem_cons_of_mem _ hg)]
    congr 1
    have hfa := hm f (List.mem_cons_self ..)
    have hsk : (elabField N .ron f).skip = attrsSkip f.attributes := rfl
    have hop : (elabField N .ron f).optSyn = decide (f.ty.base = "Option".toList) := rfl
    have hda : (elabField N .ron f).dfltAttr = (ronDefault f).map (N.expr f.ty.full) := rfl
    have htd : (elabField N .ron f).tyDefault = N.dflt f.ty.full := rfl
    have hnm : (elabField N .ron f).name = f.nm := rfl
    unfold unwrapOne
    rw [hsk, hop, hda, htd, hnm]
    have hdf : N.expr f.ty.full dfltText = N.dflt f.ty.full := hN _
    unfold genDeRonUnwrap
    cases hs : attrsSkip f.attributes with
    | true =>
      have hl := h.skipped rfl f hfa hs
      simp only [if_true, Bool.true_or, Bool.or_true]
      cases ronDefault f with
      | none => simp only [RInit.run, hl]; show (pure (N.expr f.ty.full dfltText) : PM Val) = pure (N.dflt f.ty.full); rw [hdf]
      | some d => simp only [RInit.run, hl]; rfl
    | false =>
      obtain ⟨o, ho⟩ := h.has f hfa (Or.inl hs)
      simp only [Bool.false_eq_true, if_false, Bool.false_or, Bool.or_false, ho]
      cases hj : ronDefault f with
      | some d =>
        cases o with
        | some v => simp only [RInit.run, ho]; rfl
        | none => simp only [RInit.run, ho]; simp; rfl
      | none =>
        simp only [Option.map_none, Option.isSome_none, Bool.or_false]
        by_cases hc : (decide (f.ty.base = "Option".toList) || cd) = true
        · rw [if_pos (show (cd || decide (f.ty.base = "Option".toList)) = true by rw [Bool.or_comm]; exact hc)]
          cases o with
          | some v => simp only [RInit.run, ho]; rfl
          | none =>
            simp only [RInit.run, ho]
            show (pure (N.expr f.ty.full dfltText) : PM Val) = if _ then _ else _
            rw [if_pos (by exact hc), hdf]; rfl
        · rw [if_neg (show ¬ (cd || decide (f.ty.base = "Option".toList)) = true by rw [Bool.or_comm]; exact hc)]
          cases o with
          | some v => simp only [RInit.run, ho]; rfl
          | none =>
            simp only [RInit.run, ho]
            show _ = if _ then _ else _
            rw [if_neg (by exact hc)]; rfl

theorem de_ron_named {path : List Txt} {kind : Option Bool} {build : List Val → Val} {as : List Attr} {fields : List PField}
    (ht : T path = some ⟨kind, fields.map fun f => (f.nm, f.ty.full), build⟩) (hd : (fields.map PField.nm).Pairwise (· ≠ ·))
    (hN : N.Dflt) :
    (genDeRonNamed path fields as).run (ronR env N T fl n) =
      deRonNamed (rNext fl) n (deRon env fl n) (attrsDefault as).isSome (fields.map (elabField N .ron)) >>= fun vs => pure (build vs) := by
  have ht' : (ronR env N T fl n).target path = some ⟨kind, fields.map fun f => (f.nm, f.ty.full), build⟩ := ht
  unfold RBlock.run
  obtain ⟨L0, h1, h2, _⟩ := letNone_run (ronR env N T fl n) ((genDeRonNamed path fields as).tyOf (ronR env N T fl n)) (fun f => some f.ty.full)
    [.base (.op .parenOpen),
       .whileKey (if fields.isEmpty then none else
           some ((fields.filter fun f => !attrsSkip f.attributes).map fun f =>
               ((attrsRename f.attributes).getD f.nm, [RBase.op .nextColon, .setSome (localVar f)]),
             [.failKey]))
         [.op .eatCommaParen],
       .base (.op .parenClose)] fields []
  have h1' : runStmts (ronR env N T fl n) ((genDeRonNamed path fields as).tyOf (ronR env N T fl n)) (genDeRonNamed path fields as).pre [] = _ := h1
  rw [h1']
  have hsim : Sim true (fun _ v => v) fields L0 ((fields.map (elabField N .ron)).map fun _ => none) := by
    refine ⟨?_, fun f hf _ => ⟨_, h2 f hf⟩, fun _ f hf _ => h2 f hf⟩
    rw [List.map_map]
    apply List.map_congr_left
    intro f hf
    rw [h2 f hf]
    cases attrsSkip f.attributes <;> rfl
  unfold deRonNamed
  simp only [runStmts, RStmt.run, RBase.run, bind_assoc, pure_bind]
  show (parenOpen (rNext fl) >>= fun _ => loopM (fun st : PSt => st.tok == .ident) _ n L0 >>= fun L => parenClose (rNext fl) >>= _) = _
  congr 1
  funext _
  refine loop_same (fun L acc h => ron_member hd h) n _ _ hsim _ _ _ fun L acc h => ?_
  congr 1
  funext _
  show ((RCons.lit path (fields.map fun f => (f.nm, genDeRonUnwrap (attrsDefault as).isSome f))).run (ronR env N T fl n) L >>= fun v => pure () >>= fun _ => pure v) = _
  rw [lit_run PField.nm (fun f => f.ty.full) (genDeRonUnwrap (attrsDefault as).isSome) fields ht' hd, ron_unwraps h hN fields fun f hf => hf, h.acc]
  simp

theorem de_ron_args {β : Type} {path : List Txt} {build : List Val → Val} {fs : List (Txt × Txt)} (ty : β → Txt) (l : List β)
    (ht : T path = some ⟨some false, fs, build⟩) (hf : fs.map Prod.snd = l.map ty) :
    RBlock.run (ronR env N T fl n) { pre := [.base (.op .parenOpen)], e := .app path (l.map fun _ => .callThen .eatCommaParen), post := [.parenClose] } =
      deRonTys (rNext fl) (deRon env fl n) (l.map fun b => N.ty (ty b)) >>= fun vs => pure (build vs) := by
  show ((parenOpen (rNext fl) >>= fun _ => pure []) >>= fun L => pure L) >>= (fun L => (RCons.app _ _).run (ronR env N T fl n) L >>= fun v =>
        (parenClose (rNext fl) >>= fun _ => pure ()) >>= fun _ => pure v) = _
  simp only [bind_assoc, pure_bind]
  rw [app_run ty (.callThen .eatCommaParen) l fs (show (ronR env N T fl n).target _ = _ from ht) hf l rfl,
    ← eachM_map (fun t => (RInit.callThen .eatCommaParen).run (ronR env N T fl n) [] t) ty, eat_args, List.map_map, deRonTys]
  simp only [bind_assoc, pure_bind]
  rfl

theorem de_ron_tuple {p : PStruct}
    (ht : T selfPath = some ⟨some false, numbered (fun f : PField => f.ty.full) 0 p.fields, .struct⟩) :
    (genDeRonTuple p).run (ronR env N T fl n) =
      deRonTys (rNext fl) (deRon env fl n) (p.fields.map (elabTupleTy N .ron)) >>= fun vs => pure (.struct vs) :=
  de_ron_args (fun f : PField => f.ty.full) p.fields ht (numbered_snd _ _ _)

theorem de_ron_arm {j : Nat} {w : PField} {var : Variant} (hv : elabVariant N .ron w = some var) (en : Txt) :
    ∃ b, genDeRonArm en w = some (var.name, b) ∧
      ∀ (env : Env) (T : List Txt → Option RTarget) (fl : FloatOps) (n : Nat) (t : RTarget),
        T (selfVar w.nm) = some t → T [en, w.nm] = some t → TargetOf j w t → N.Dflt →
        (∀ s, w.ty.cat = .anonymous s → (s.fields.map PField.nm).Pairwise (· ≠ ·)) →
        b.run (ronR env N T fl n) =
          deRonShape (rNext fl) n (deRon env fl n) var.shape >>= fun vs => pure (.variant j vs) := by
  obtain ⟨hn, _, h⟩ := elabVariant_cases hv
  unfold genDeRonArm TargetOf
  rw [hn]
  rcases h with ⟨hc, hwr, hs⟩ | ⟨s, hc, hs⟩ | ⟨ts, hc, hs⟩
  · rw [hc, hwr]
    refine ⟨_, rfl, ?_⟩
    intro env T fl n t ht _ hw _ _
    rw [hs]
    show (pure [] >>= fun L => (RCons.unit _).run (ronR env N T fl n) L >>= fun v => pure () >>= fun _ => pure v) = _
    rw [pure_bind, RCons.run, show (ronR env N T fl n).target (selfVar w.nm) = some t from ht]
    simp only [hw.1, if_true, hw.2]
    rfl
  · rw [hc]
    refine ⟨_, rfl, ?_⟩
    intro env T fl n t _ ht hw hN hd
    rw [hs]
    subst hw
    exact de_ron_named ht (hd s rfl) hN
  · rw [hc]
    refine ⟨_, rfl, ?_⟩
    intro env T fl n t ht _ hw _ _
    rw [hs]
    obtain ⟨k, fs, bd⟩ := t
    obtain ⟨rfl, h2, rfl⟩ := hw
    exact de_ron_args PType.full ts ht h2

/-- The block of a variant. -/
def ronBlk (en : Txt) (w : PField) : RBlock := ((genDeRonArm en w).map fun a => a.2).getD { e := .unit [] }

theorem de_ron_enum {e : PEnum} {vars : List Variant} (he : allSome (e.variants.map (elabVariant N .ron)) = some vars)
    (hT : ∀ j w, e.variants[j]? = some w → ∃ t, T (selfVar w.nm) = some t ∧ T [e.name, w.nm] = some t ∧ TargetOf j w t) (hN : N.Dflt)
    (hd : ∀ w ∈ e.variants, ∀ s, w.ty.cat = .anonymous s → (s.fields.map PField.nm).Pairwise (· ≠ ·)) :
    ∃ body, genDeRonEnum e = some body ∧ ∀ (env : Env) (fl : FloatOps) (n : Nat),
      body.run (ronR env N T fl n) = deRonEnum (rNext fl) n (deRon env fl n) vars := by
  have hvar : ∀ w ∈ e.variants, elabVariant N .ron w = some ((elabVariant N .ron w).getD { name := [], shape := .unit }) := by
    intro w hw
    obtain ⟨var, hv⟩ := allSome_none he _ (List.mem_map_of_mem hw)
    rw [hv]; rfl
  have hvars := allSome_eq { name := [], shape := .unit } he
  generalize hV : (fun w => (elabVariant N .ron w).getD { name := [], shape := .unit }) = V at hvars
  replace hvar : ∀ w ∈ e.variants, elabVariant N .ron w = some (V w) := by intro w hw; rw [← hV]; exact hvar w hw
  have harm : ∀ w ∈ e.variants, genDeRonArm e.name w = some ((V w).name, ronBlk e.name w) := by
    intro w hw
    obtain ⟨b, hb, _⟩ := de_ron_arm (j := 0) (hvar w hw) e.name
    rw [ronBlk, hb]; rfl
  refine ⟨_, by rw [genDeRonEnum, genArms_const, allSome_mapF _ harm]; rfl, ?_⟩
  intro env fl n
  rw [hvars]
  show ((expectTok (rNext fl) .ident "Identifier" >>= fun _ => pure ()) >>= fun _ => M.get >>= fun st : PSt => _) = _
  unfold deRonEnum
  simp only [bind_assoc, pure_bind]
  congr 1; funext _
  congr 1; funext st
  rw [lookup_find, find_at, List.findIdx?_map]
  show (match (Option.map (ronBlk e.name) ((e.variants.findIdx? fun w => (V w).name == st.identbuf).bind _)) with | some b => _ | none => _) =
    match e.variants.findIdx? (fun w => (V w).name == st.identbuf) with | some j => _ | none => _
  cases hi : e.variants.findIdx? fun w => (V w).name == st.identbuf with
  | none => rfl
  | some j =>
    obtain ⟨hlt, _, _⟩ := List.findIdx?_eq_some_iff_getElem.1 hi
    have hg : e.variants[j]? = some e.variants[j] := List.getElem?_eq_getElem hlt
    generalize e.variants[j] = w at hg
    have hw := List.mem_of_getElem? hg
    obtain ⟨b, hb, hrun⟩ := de_ron_arm (j := j) (hvar w hw) e.name
    obtain ⟨t, h1, h2, h3⟩ := hT j w hg
    have : (ronBlk e.name w).run (ronR env N T fl n) =
        deRonShape (rNext fl) n (deRon env fl n) (V w).shape >>= fun vs => pure (Val.variant j vs) := by
      rw [ronBlk, hb]; exact hrun env T fl n t h1 h2 h3 hN (hd w hw)
    simp only [Option.bind_some, hg, Option.map_some, this, bind_assoc, pure_bind]
    rw [List.getD_eq_getElem?_getD, List.getElem?_map, hg]
    rfl

end NS.Derive
