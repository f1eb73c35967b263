import Verif.Lemmas.GenWrite

/-!
# Running the generated JSON and RON writers
-/

namespace NS.Derive
open NS

variable {α : Type} {C : WCtx α} {self : List (Txt × TV)}

theorem sees_nil (b : Bool) : C.sees [] b = true := by simp [WCtx.sees]

theorem sees_t (v : TV) (b : Bool) : C.sees [("t".toList, v)] b = true := by
  unfold WCtx.sees
  rw [List.lookup, show ("s".toList == "t".toList) = false from by decide, List.lookup, List.lookup,
    show ("d".toList == "t".toList) = false from by decide, List.lookup]
  simp

theorem step_ifLet_some {x : Txt} {e : WExpr} {body els ss : List WStmt} {st st' : WSt α} {u : Txt} {t : Ty} {v : Val}
    (he : e.eval C self st.vars = some ⟨u, .option t, .some v⟩)
    (hr : runAll C self body { st with vars := (x, ⟨[], t, v⟩) :: st.vars } = some st') :
    runAll C self (.ifLet x e body els :: ss) st = runAll C self ss { st' with vars := st.vars } := by
  rw [runAll_cons, WStmt.run, he]
  simp only [hr]; rfl

theorem step_ifLet_none {x : Txt} {e : WExpr} {body els ss : List WStmt} {st st' : WSt α} {u : Txt} {t : Ty}
    (he : e.eval C self st.vars = some ⟨u, .option t, .none⟩) (hr : runAll C self els st = some st') :
    runAll C self (.ifLet x e body els :: ss) st = runAll C self ss { st' with vars := st.vars } := by
  rw [runAll_cons, WStmt.run, he]
  simp only [hr]; rfl

theorem step_writeNone {ss : List WStmt} {st : WSt α} (hv : C.sees st.vars true = true) :
    runAll C self (.writeNone :: ss) st = runAll C self ss { st with out := st.out ++ C.ser (.option (.int .i32)) .none } := by
  rw [runAll_cons, WStmt.run, if_pos hv]; rfl

theorem step_ifSome_some {e : WExpr} {body ss : List WStmt} {st st' : WSt α} {u : Txt} {t : Ty} {v : Val}
    (he : e.eval C self st.vars = some ⟨u, t, .some v⟩) (hr : runAll C self body st = some st') :
    runAll C self (.ifSome e body :: ss) st = runAll C self ss { st' with vars := st.vars } := by
  rw [runAll_cons, WStmt.run, he]
  simp only [Option.map_some, hr]; rfl

theorem step_ifSome_none {e : WExpr} {body ss : List WStmt} {st : WSt α} {u : Txt} {t : Ty}
    (he : e.eval C self st.vars = some ⟨u, t, .none⟩) :
    runAll C self (.ifSome e body :: ss) st = runAll C self ss st := by
  rw [runAll_cons, WStmt.run, he]; rfl

/-- The items of a list written with the separator in front of all but the first; `b`: there was one before. -/
def withSep (b : Bool) : List (List Char) → List Char
  | [] => []
  | x :: xs => (if b then [','] else []) ++ x ++ withSep true xs

theorem joinSep_withSep (xs : List (List Char)) : joinSep [','] xs = withSep false xs := by
  cases xs with
  | nil => rfl
  | cons x xs =>
    induction xs generalizing x with
    | nil => simp [joinSep, withSep]
    | cons y ys ih =>
      rw [joinSep, ih y]
      simp [withSep]

variable {env : Env} {N : Names} {fl : FloatOps}

/-- Has a member been written? -/
def FlagIs (st : WSt Char) (b : Bool) : Prop := st.flags.lookup firstFlag = some b

theorem header_run (k : Txt) (ss : List WStmt) {st : WSt Char} {b : Bool} (hv : (jsonW env N fl).sees st.vars true = true)
    (hf : FlagIs st b) : ∃ st', runAll (jsonW env N fl) self (fieldHeader k ++ ss) st = runAll (jsonW env N fl) self ss st' ∧
      FlagIs st' true ∧ st'.vars = st.vars ∧
      st'.out = st.out ++ (if b then [','] else []) ++ jsonLabel k ++ [':'] := by
  unfold fieldHeader
  cases b with
  | false =>
    refine ⟨{ vars := st.vars, flags := (firstFlag, true) :: st.flags, out := st.out ++ ('"' :: (k ++ ['"', ':'])) }, ?_, ?_,
      rfl, ?_⟩
    · rw [List.cons_append, runAll_cons, WStmt.run, hf]
      simp only [Option.bind_some]
      rw [List.cons_append, runAll_cons, WStmt.run, hf]
      simp only [Option.map_some, Option.bind_some]
      rw [List.cons_append, List.nil_append, step_op (by exact hv)]; rfl
    · simp [FlagIs]
    · simp [jsonLabel]
  | true =>
    refine ⟨{ vars := st.vars, flags := (firstFlag, true) :: st.flags,
              out := (st.out ++ [',']) ++ ('"' :: (k ++ ['"', ':'])) }, ?_, ?_, rfl, ?_⟩
    · rw [List.cons_append, runAll_cons, WStmt.run, hf]
      simp only
      rw [step_op hv, runAll_nil]
      simp only [Option.map_some, Option.bind_some]
      rw [List.cons_append, runAll_cons, WStmt.run]
      simp only
      rw [hf]
      simp only [Option.map_some, Option.bind_some]
      rw [List.cons_append, List.nil_append, step_op (by exact hv)]; rfl
    · simp [FlagIs]
    · simp [jsonLabel]

/-- `Option` in the declaration is the type of the standard library. -/
def OptionIs (N : Names) (f : PField) : Prop := f.ty.base = "Option".toList → ∃ t, N.ty f.ty.full = .option t

theorem hasTy_option {t : Ty} {v : Val} (h : HasTy env (.option t) v) : v = .none ∨ ∃ w, v = .some w ∧ HasTy env t w := by
  cases v <;> first
    | (rw [HasTy] at h; exact Or.inr ⟨_, rfl, h⟩)
    | exact Or.inl rfl
    | (rw [HasTy] at h; exact h.elim; all_goals (intros; contradiction))

/-- The conversions of the proxy exist. -/
def ProxyIs (env : Env) (N : Names) (f : PField) : Prop :=
  ∀ p, attrsProxy f.attributes = some p → ∃ px, env.proxies[N.proxy f.ty.full p]? = some px

theorem viaOpt_some {e : WExpr} {p u : Txt} {t : Ty} {o q : Val} {px : Proxy} {vars : List (Txt × TV)}
    (he : e.eval C self vars = some ⟨u, t, .some (.prox o q)⟩) (hpx : C.env.proxies[C.N.proxy u p]? = some px) :
    (WExpr.viaOpt e p).eval C self vars = some ⟨[], .option px.ty, .some (px.into o)⟩ := by
  rw [WExpr.eval, he, Option.bind_some]
  have := into_prox (C := C) (p := p) (px := px) (o := o) (q := q) (v := ⟨u, t, .some (.prox o q)⟩) hpx
  simp only [hpx, this]
  rfl

/-- The value of a field as the writer sees it. -/
theorem guard_eval {e : WExpr} {f : PField} {v : Val} {vars : List (Txt × TV)}
    (he : e.eval (jsonW env N fl) self vars = some ⟨f.ty.full, N.ty f.ty.full, v⟩)
    (hself : (∃ x, e = .self x) ∨ attrsProxy f.attributes = none ∨ f.ty.base = "Option".toList)
    (ht : HasTy env (elabTy N .json f) v) (ho : OptionIs N f) (hpx : ProxyIs env N f) :
    ∃ u t w, (serProxyGuard e f).eval (jsonW env N fl) self vars = some ⟨u, t, w⟩ ∧
      serJson env fl t w = serJson env fl (elabTy N .json f) v ∧
      (f.ty.base = "Option".toList → ∃ t', t = .option t' ∧ (v = .none ∧ w = .none ∨ ∃ v' w', v = .some v' ∧ w = .some w')) := by
  unfold serProxyGuard
  unfold elabTy at ht ⊢
  cases hp : attrsProxy f.attributes with
  | none =>
    rw [hp] at ht
    refine ⟨_, _, _, he, rfl, fun hb => ?_⟩
    obtain ⟨t, ht'⟩ := ho hb
    refine ⟨t, ht', ?_⟩
    simp only [ht'] at ht
    rcases hasTy_option ht with rfl | ⟨w, rfl, _⟩
    · exact Or.inl ⟨rfl, rfl⟩
    · exact Or.inr ⟨w, w, rfl, rfl⟩
  | some p =>
    rw [hp] at ht
    obtain ⟨px, hpx⟩ := hpx p hp
    by_cases hb : f.ty.base = "Option".toList
    · simp only [if_pos hb] at ht ⊢
      rcases hasTy_option ht with rfl | ⟨w, rfl, hw⟩
      · refine ⟨[], .option px.ty, .none, ?_, by rw [serJson, serJson], fun _ => ⟨_, rfl, Or.inl ⟨rfl, rfl⟩⟩⟩
        rw [WExpr.eval, he, Option.bind_some]
        simp only [jsonW, hpx]
      · obtain ⟨o, px', hpx', rfl⟩ := hasTy_proxied hw
        rw [hpx] at hpx'
        cases hpx'
        refine ⟨[], .option px.ty, .some (px.into o), ?_, ?_, fun _ => ⟨_, rfl, Or.inr ⟨_, _, rfl, rfl⟩⟩⟩
        · exact viaOpt_some he hpx
        · rw [serJson, serJson, serJson, hpx]
    · simp only [if_neg hb] at ht ⊢
      obtain ⟨o, px', hpx', rfl⟩ := hasTy_proxied ht
      rw [hpx] at hpx'
      cases hpx'
      rcases hself with ⟨x, rfl⟩ | h | h
      · refine ⟨p, px.ty, px.into o, ?_, ?_, fun h => absurd h hb⟩
        · rw [WExpr.eval] at he
          rw [WExpr.eval, he, Option.bind_some]
          exact into_prox (C := jsonW env N fl) (p := p) (px := px) (v := ⟨f.ty.full, N.ty f.ty.full, _⟩) hpx
        · rw [serJson, hpx]
      · rw [hp] at h; cases h
      · exact absurd h hb

theorem lookup_t (v : TV) (vars : List (Txt × TV)) : WExpr.eval C self (("t".toList, v) :: vars) (.var "t".toList) = some v := by
  simp [WExpr.eval]

theorem noneAsNull_text (t : Ty) : serJson env fl (.option t) .none = ['n', 'u', 'l', 'l'] := by rw [serJson]

/-- The member of one field (or nothing), as `serJsonFields` has it. -/
def jsonItem (env : Env) (fl : FloatOps) (nul : Bool) (f : Field) (v : Val) : List (List Char) :=
  if f.skip then []
  else if f.optSyn ∧ v.isNone then
    if (f.noneAsNull || nul) ∧ ¬ f.optProxy then [jsonMember f.key ['n', 'u', 'l', 'l']] else []
  else [jsonMember f.key (serJson env fl f.ty v)]

theorem serJsonFields_cons (nul : Bool) (f : Field) (fs : List Field) (v : Val) (vs : List Val) :
    serJsonFields env fl nul (f :: fs) (v :: vs) = jsonItem env fl nul f v ++ serJsonFields env fl nul fs vs := by
  rw [serJsonFields, jsonItem]
  split
  · rfl
  · split
    · split <;> rfl
    · rfl

theorem withSep_append (b : Bool) (xs ys : List (List Char)) :
    withSep b (xs ++ ys) = withSep b xs ++ withSep (b || !xs.isEmpty) ys := by
  induction xs generalizing b with
  | nil => simp [withSep]
  | cons x xs ih => simp [withSep, ih]

theorem jsonField_run {as : List Attr} {f : PField} {v : Val} {st : WSt Char} {b : Bool} (hvars : st.vars = [])
    (hs : self.lookup f.nm = some ⟨f.ty.full, N.ty f.ty.full, v⟩) (ht : HasTy env (elabTy N .json f) v)
    (ho : OptionIs N f) (hpx : ProxyIs env N f) (hf : FlagIs st b) :
    ∃ st', runAll (jsonW env N fl) self (genSerJsonField as f) st = some st' ∧ st'.vars = [] ∧
      FlagIs st' (b || !(jsonItem env fl (attrsNoneAsNull as) (elabField N .json f) v).isEmpty) ∧
      st'.out = st.out ++ withSep b (jsonItem env fl (attrsNoneAsNull as) (elabField N .json f) v) := by
  obtain ⟨vars, flags, out⟩ := st
  subst hvars
  have hkey : (elabField N .json f).key = (attrsRename f.attributes).getD f.nm := rfl
  unfold genSerJsonField
  rw [jsonItem, show (elabField N .json f).skip = attrsSkip f.attributes from rfl, hkey]
  generalize (attrsRename f.attributes).getD f.nm = k
  cases hsk : attrsSkip f.attributes with
  | true => exact ⟨⟨[], flags, out⟩, by simp [runAll_nil], rfl, by simpa using hf, by simp [withSep]⟩
  | false =>
    simp only [if_neg (show ¬ false = true by decide)]
    obtain ⟨u, t, w, he, hser, hopt⟩ := guard_eval (vars := []) (fl := fl) (e := .self f.nm) (by rw [WExpr.eval]; exact hs)
      (Or.inl ⟨_, rfl⟩) ht ho hpx
    have hty : (elabField N .json f).ty = elabTy N .json f := rfl
    have hon : (elabField N .json f).optSyn = decide (f.ty.base = "Option".toList) := rfl
    have hnn : (elabField N .json f).noneAsNull = attrsNoneAsNull f.attributes := rfl
    have hop : (elabField N .json f).optProxy = decide (f.ty.base = "Option".toList ∧ (attrsProxy f.attributes).isSome) := by
      show decide (Fmt.json = .json ∧ _ ∧ _) = _
      congr 1
      exact propext ⟨fun h => h.2, fun h => ⟨rfl, h⟩⟩
    have hv0 : (jsonW env N fl).sees [] true = true := sees_nil _
    by_cases hb : f.ty.base = "Option".toList
    · rw [if_pos hb]
      obtain ⟨t', rfl, hvw⟩ := hopt hb
      rw [hon, hnn, hop, hty]
      by_cases hnull : ((attrsNoneAsNull f.attributes || attrsNoneAsNull as) && (attrsProxy f.attributes).isNone) = true
      · rw [if_pos hnull]
        have hnull' : (attrsNoneAsNull f.attributes || attrsNoneAsNull as) = true ∧
            ¬ decide (f.ty.base = "Option".toList ∧ (attrsProxy f.attributes).isSome) = true := by
          rw [Bool.and_eq_true] at hnull
          refine ⟨hnull.1, ?_⟩
          intro h
          have := (of_decide_eq_true h).2
          revert this hnull
          cases attrsProxy f.attributes <;> simp
        obtain ⟨s1, h1, h2, h3, h4⟩ := header_run (self := self) k
          [.ifLet "t".toList (serProxyGuard (.self f.nm) f) [.write (.var "t".toList)] [.writeNone]] (st := ⟨[], flags, out⟩) hv0 hf
        rcases hvw with ⟨rfl, rfl⟩ | ⟨v', w', rfl, rfl⟩
        · have hels : runAll (jsonW env N fl) self [.writeNone] s1 = some { s1 with out := s1.out ++ ['n', 'u', 'l', 'l'] } := by
            rw [step_writeNone (by rw [h3]; exact hv0), runAll_nil]
            show some ({ s1 with out := s1.out ++ serJson env fl (.option (.int .i32)) .none } : WSt Char) = _
            rw [noneAsNull_text]
          refine ⟨{ s1 with out := s1.out ++ ['n', 'u', 'l', 'l'] }, ?_, h3, ?_, ?_⟩
          · rw [h1, step_ifLet_none (by rw [h3]; exact he) hels, runAll_nil]
          · rw [if_pos (by simp [hb, Val.isNone]), if_pos hnull']
            simpa [FlagIs] using h2
          · rw [if_pos (by simp [hb, Val.isNone]), if_pos hnull']
            show s1.out ++ _ = _
            rw [h4]
            simp [withSep, jsonMember]
        · refine ⟨{ s1 with out := s1.out ++ serJson env fl t' w' }, ?_, h3, ?_, ?_⟩
          · rw [h1, step_ifLet_some (st' := ⟨("t".toList, ⟨[], t', w'⟩) :: s1.vars, s1.flags, s1.out ++ serJson env fl t' w'⟩)
              (by rw [h3]; exact he) (by
                rw [step_write (v := ⟨[], t', w'⟩) (by rw [h3]; exact sees_t _ _) (lookup_t _ _), runAll_nil]; rfl), runAll_nil]
          · rw [if_neg (by simp [Val.isNone])]
            simpa [FlagIs] using h2
          · rw [if_neg (by simp [Val.isNone])]
            show s1.out ++ _ = _
            rw [h4, ← hser, serJson]
            simp [withSep, jsonMember]
      · rw [if_neg hnull]
        have hnull' : ¬ ((attrsNoneAsNull f.attributes || attrsNoneAsNull as) = true ∧
            ¬ decide (f.ty.base = "Option".toList ∧ (attrsProxy f.attributes).isSome) = true) := by
          rintro ⟨h1, h2⟩
          apply hnull
          rw [h1, Bool.true_and]
          cases hp : attrsProxy f.attributes with
          | none => rfl
          | some p => exact absurd (decide_eq_true ⟨hb, by rw [hp]; rfl⟩) h2
        rcases hvw with ⟨rfl, rfl⟩ | ⟨v', w', rfl, rfl⟩
        · refine ⟨⟨[], flags, out⟩, ?_, rfl, ?_, ?_⟩
          · rw [step_ifLet_none he (runAll_nil _), runAll_nil]
          · rw [if_pos (by simp [hb, Val.isNone]), if_neg hnull']
            simpa using hf
          · rw [if_pos (by simp [hb, Val.isNone]), if_neg hnull']
            simp [withSep]
        · obtain ⟨s1, h1, h2, h3, h4⟩ := header_run (self := self) k [.write (.var "t".toList)]
            (st := ⟨[("t".toList, ⟨[], t', w'⟩)], flags, out⟩) (sees_t (C := jsonW env N fl) ⟨[], t', w'⟩ true) hf
          refine ⟨⟨[], s1.flags, s1.out ++ serJson env fl t' w'⟩, ?_, rfl, ?_, ?_⟩
          · rw [step_ifLet_some (st' := ⟨s1.vars, s1.flags, s1.out ++ serJson env fl t' w'⟩) he (by
                rw [h1, step_write (v := ⟨[], t', w'⟩) (by rw [h3]; exact sees_t _ _) (by rw [h3]; exact lookup_t _ _),
                  runAll_nil]
                rfl), runAll_nil]
          · rw [if_neg (by simp [Val.isNone])]
            simpa [FlagIs] using h2
          · rw [if_neg (by simp [Val.isNone])]
            show s1.out ++ _ = _
            rw [h4, ← hser, serJson]
            simp [withSep, jsonMember]
    · rw [if_neg hb, if_neg (by rw [hon, decide_eq_true_eq]; exact fun h => hb h.1)]
      obtain ⟨s1, h1, h2, h3, h4⟩ := header_run (self := self) k [.write (serProxyGuard (.self f.nm) f)]
        (st := ⟨[], flags, out⟩) hv0 hf
      refine ⟨{ s1 with out := s1.out ++ serJson env fl t w }, ?_, h3, ?_, ?_⟩
      · rw [h1, step_write (v := ⟨u, t, w⟩) (by rw [h3]; exact hv0) (by rw [h3]; exact he), runAll_nil]; rfl
      · simpa [FlagIs] using h2
      · show s1.out ++ _ = _
        rw [h4, hser, hty]
        simp [withSep, jsonMember]

theorem jsonFields_run {as : List Attr} : ∀ (fs : List PField) (vs : List Val) (st : WSt Char) (b : Bool), st.vars = [] →
    HoldsIn N self (fs.zip vs) → FieldsTy env (fs.map (elabField N .json)) vs → (∀ f ∈ fs, OptionIs N f) →
    (∀ f ∈ fs, ProxyIs env N f) → FlagIs st b →
    ∃ st', runAll (jsonW env N fl) self (fs.flatMap (genSerJsonField as)) st = some st' ∧ st'.vars = [] ∧
      st'.out = st.out ++ withSep b (serJsonFields env fl (attrsNoneAsNull as) (fs.map (elabField N .json)) vs) := by
  intro fs
  induction fs with
  | nil =>
    intro vs st b h0 _ ht _ _ _
    exact ⟨st, by simp [runAll_nil], h0, by cases vs <;> simp [serJsonFields, withSep]⟩
  | cons f fs ih =>
    intro vs st b h0 hh ht ho hp hf
    cases vs with
    | nil => simp [FieldsTy] at ht
    | cons v vs =>
      rw [List.map_cons, FieldsTy] at ht
      obtain ⟨s1, h1, h2, h3, h4⟩ := jsonField_run (fl := fl) (as := as) h0 hh.head ht.1 (ho f (by simp)) (hp f (by simp)) hf
      obtain ⟨s2, h5, h6, h7⟩ := ih vs s1 _ h2 hh.tail ht.2 (fun g hg => ho g (List.mem_cons_of_mem _ hg))
        (fun g hg => hp g (List.mem_cons_of_mem _ hg)) h3
      refine ⟨s2, ?_, h6, ?_⟩
      · rw [List.flatMap_cons, runAll_append, h1]; exact h5
      · rw [h7, h4, List.map_cons, serJsonFields_cons, withSep_append, List.append_assoc]

/-! ### Struct variants -/

theorem jsonItems_run : ∀ (fs : List PField) (vs : List Val) (st : WSt Char),
    HoldsIn N st.vars (fs.zip vs) → FieldsTy env (fs.map (elabField N .json)) vs → (∀ f ∈ fs, OptionIs N f) →
    (∀ f ∈ fs, ProxyIs env N f) → (∀ f ∈ fs, attrsProxy f.attributes = none ∨ f.ty.base = "Option".toList) →
    (jsonW env N fl).sees st.vars true = true →
    ∃ st', runAll (jsonW env N fl) self (genSerJsonItems fs) st = some st' ∧ st'.vars = st.vars ∧
      st'.out = st.out ++ serJsonVarFields env fl (fs.map (elabField N .json)) vs := by
  intro fs
  induction fs with
  | nil =>
    intro vs st _ ht _ _ _ _
    exact ⟨st, by simp [genSerJsonItems, runAll_nil], rfl, by cases vs <;> simp [serJsonVarFields]⟩
  | cons f fs ih =>
    intro vs st hh ht ho hp hvar hv
    cases vs with
    | nil => simp [FieldsTy] at ht
    | cons v vs =>
      rw [List.map_cons, FieldsTy] at ht
      obtain ⟨u, t, w, he, hser, hopt⟩ := guard_eval (self := self) (vars := st.vars) (fl := fl) (e := .var f.nm)
        (by rw [WExpr.eval]; exact hh.head) (Or.inr (hvar f (by simp))) ht.1 (ho f (by simp)) (hp f (by simp))
      have key : ∀ st' : WSt Char, st'.vars = st.vars → (∃ q, runAll (jsonW env N fl) self (genSerJsonItems fs) st' = some q ∧
          q.vars = st.vars ∧ q.out = st'.out ++ serJsonVarFields env fl (fs.map (elabField N .json)) vs) := fun st' h => by
        obtain ⟨q, h1, h2, h3⟩ := ih vs st' (by rw [h]; exact hh.tail) ht.2 (fun g hg => ho g (List.mem_cons_of_mem _ hg))
          (fun g hg => hp g (List.mem_cons_of_mem _ hg)) (fun g hg => hvar g (List.mem_cons_of_mem _ hg)) (by rw [h]; exact hv)
        exact ⟨q, h1, h2.trans h, h3⟩
      have hw : runAll (jsonW env N fl) self ([.op (.field f.nm), .write (serProxyGuard (.var f.nm) f)] ++
          if fs.isEmpty then [] else [.op .conl]) st =
          some { st with out := st.out ++ (jsonMember f.nm (serJson env fl (elabTy N .json f) v) ++ if fs.isEmpty then [] else [',']) } := by
        rw [List.cons_append, step_op hv, List.cons_append, step_write (v := ⟨u, t, w⟩) (by exact hv) (by exact he), List.nil_append]
        show runAll _ _ _ _ = _
        rw [show (jsonW env N fl).ser t w = serJson env fl t w from rfl, hser]
        cases fs with
        | nil => simp [runAll_nil, jsonW, jsonMember, jsonLabel]
        | cons => 
          simp only [List.isEmpty_cons]
          rw [if_neg (by simp), if_neg (by simp), step_op (by exact hv), runAll_nil]
          simp [jsonW, jsonMember, jsonLabel]
      have hon : (elabField N .json f).optSyn = decide (f.ty.base = "Option".toList) := rfl
      rw [genSerJsonItems, List.map_cons, serJsonVarFields, hon, show (elabField N .json f).name = f.nm from rfl,
        show (elabField N .json f).ty = elabTy N .json f from rfl, List.isEmpty_map]
      by_cases hb : f.ty.base = "Option".toList
      · obtain ⟨t', rfl, hvw⟩ := hopt hb
        simp only [if_pos hb]
        rcases hvw with ⟨rfl, rfl⟩ | ⟨v', w', rfl, rfl⟩
        · obtain ⟨q, h1, h2, h3⟩ := key st rfl
          refine ⟨q, ?_, h2, ?_⟩
          · rw [List.singleton_append, step_ifSome_none (by rw [WExpr.eval]; exact hh.head), h1]
          · rw [if_pos (by simp [hb, Val.isNone]), h3]; rfl
        · obtain ⟨q, h1, h2, h3⟩ := key _ (show ({ st with out := st.out ++ (jsonMember f.nm (serJson env fl (elabTy N .json f) (.some v')) ++ if fs.isEmpty then [] else [',']) } : WSt Char).vars = st.vars from rfl)
          refine ⟨q, ?_, h2, ?_⟩
          · rw [List.singleton_append, step_ifSome_some (by rw [WExpr.eval]; exact hh.head) hw, ← h1]
          · rw [if_neg (by simp [Val.isNone]), h3, List.append_assoc]
      · simp only [if_neg hb]
        obtain ⟨q, h1, h2, h3⟩ := key _ (show ({ st with out := st.out ++ (jsonMember f.nm (serJson env fl (elabTy N .json f) v) ++ if fs.isEmpty then [] else [',']) } : WSt Char).vars = st.vars from rfl)
        refine ⟨q, ?_, h2, ?_⟩
        · rw [runAll_append, hw]; exact h1
        · rw [if_neg (by rw [decide_eq_true_eq]; exact fun h => hb h.1), h3, List.append_assoc]

/-! ### Tuples -/

section tuples
variable {D : WCtx Char}

/-- The texts of the components. -/
def compTexts (N : Names) (ser : Ty → Val → List Char) : List PType → List Val → List (List Char)
  | t :: ts, v :: vs => ser (N.ty t.full) v :: compTexts N ser ts vs
  | _, _ => []

theorem serJsonTys_comp : ∀ (ts : List PType) (vs : List Val),
    serJsonTys env fl (ts.map fun t => N.ty t.full) vs = compTexts N (serJson env fl) ts vs := by
  intro ts
  induction ts with
  | nil => intro vs; simp [serJsonTys, compTexts]
  | cons t ts ih => intro vs; cases vs <;> simp [serJsonTys, compTexts, ih]

theorem serRonTys_comp : ∀ (ts : List PType) (vs : List Val),
    serRonTys env fl (ts.map fun t => N.ty t.full) vs = compTexts N (serRon env fl) ts vs := by
  intro ts
  induction ts with
  | nil => intro vs; simp [serRonTys, compTexts]
  | cons t ts ih => intro vs; cases vs <;> simp [serRonTys, compTexts, ih]

theorem tupleItems_run (hop : ∀ t, D.op (.push t) = t) (sep : Txt) : ∀ (ts : List PType) (vs : List Val) (n : Nat) (st : WSt Char),
    HoldsAt N st.vars fN n ts vs → ts.length = vs.length → D.sees st.vars true = true →
    runAll D self (genTupleItems sep n ts.length) st =
      some { st with out := st.out ++ joinSep sep (compTexts N D.ser ts vs) } := by
  intro ts
  induction ts with
  | nil => intro vs n st _ _ _; simp [genTupleItems, runAll_nil, compTexts, joinSep]
  | cons t ts ih =>
    intro vs n st hh hl hv
    cases vs with
    | nil => simp at hl
    | cons v vs =>
      have he : (WExpr.var (fN n)).eval D self st.vars = some ⟨t.full, N.ty t.full, v⟩ := by rw [WExpr.eval, hh.head]
      cases ts with
      | nil =>
        cases vs with
        | cons => simp at hl
        | nil => rw [List.length_singleton, genTupleItems, step_write hv he, runAll_nil]; simp [compTexts, joinSep]
      | cons t' ts =>
        cases vs with
        | nil => simp at hl
        | cons v' vs =>
          rw [List.length_cons, List.length_cons, genTupleItems, step_write hv he, step_op (by exact hv), hop]
          have := ih (v' :: vs) (n + 1) ⟨st.vars, st.flags, st.out ++ D.ser (N.ty t.full) v ++ sep⟩ hh.tail
            (by simpa using hl) hv
          rw [List.length_cons] at this
          rw [this]
          simp [compTexts, joinSep]

theorem selfItems_run (hop : ∀ t, D.op (.push t) = t) : ∀ (ts : List PType) (vs : List Val) (n : Nat) (st : WSt Char),
    HoldsAt N self showNat n ts vs → ts.length = vs.length → D.sees st.vars true = true →
    runAll D self (genSelfItems n ts.length) st =
      some { st with out := st.out ++ joinSep [',', ' '] (compTexts N D.ser ts vs) } := by
  intro ts
  induction ts with
  | nil => intro vs n st _ _ _; simp [genSelfItems, runAll_nil, compTexts, joinSep]
  | cons t ts ih =>
    intro vs n st hh hl hv
    cases vs with
    | nil => simp at hl
    | cons v vs =>
      have he : (WExpr.self (showNat n)).eval D self st.vars = some ⟨t.full, N.ty t.full, v⟩ := by rw [WExpr.eval, hh.head]
      cases ts with
      | nil =>
        cases vs with
        | cons => simp at hl
        | nil => rw [List.length_singleton, genSelfItems, step_write hv he, runAll_nil]; simp [compTexts, joinSep]
      | cons t' ts =>
        cases vs with
        | nil => simp at hl
        | cons v' vs =>
          rw [List.length_cons, List.length_cons, genSelfItems, step_write hv he, step_op (by exact hv), hop]
          have := ih (v' :: vs) (n + 1) ⟨st.vars, st.flags, st.out ++ D.ser (N.ty t.full) v ++ [',', ' ']⟩ hh.tail
            (by simpa using hl) hv
          rw [List.length_cons] at this
          rw [this]
          simp [compTexts, joinSep]

/-- The tuple struct loop of the RON writer without skipped fields is the same. -/
theorem ronTuple_gen : ∀ (fs : List PField) (n last : Nat), (∀ f ∈ fs, attrsSkip f.attributes = false) → n + fs.length = last + 1 →
    genSerRonTupleFrom last n fs = genSelfItems n fs.length := by
  intro fs
  induction fs with
  | nil => intro n last _ _; rfl
  | cons f fs ih =>
    intro n last hs hl
    rw [genSerRonTupleFrom, hs f (by simp), ih (n + 1) last (fun g hg => hs g (List.mem_cons_of_mem _ hg))
      (by rw [List.length_cons] at hl; omega)]
    cases fs with
    | nil =>
      rw [List.length_singleton] at hl
      rw [if_neg (by simp), if_pos (by omega)]
      rfl
    | cons g gs =>
      rw [List.length_cons, List.length_cons] at hl
      rw [if_neg (by simp), if_neg (by omega)]
      rfl

end tuples

/-! ### RON -/

/-- The member of one field (or nothing), as `serRonFields` has it. -/
def ronItem (env : Env) (fl : FloatOps) (attrs : Bool) (f : Field) (v : Val) : List (List Char) :=
  if attrs ∧ f.skip then []
  else if f.optSyn ∧ v.isNone then []
  else [ronMember (if attrs then f.key else f.name) (serRon env fl f.ty v)]

theorem serRonFields_cons (at_ : Bool) (f : Field) (fs : List Field) (v : Val) (vs : List Val) :
    serRonFields env fl at_ (f :: fs) (v :: vs) = ronItem env fl at_ f v ++ serRonFields env fl at_ fs vs := by
  rw [serRonFields, ronItem]
  split
  · rfl
  · split <;> rfl

theorem commaEach_append (xs ys : List (List Char)) : commaEach (xs ++ ys) = commaEach xs ++ commaEach ys := by
  simp [commaEach]

theorem elabTy_ron (f : PField) : elabTy N .ron f = N.ty f.ty.full := by
  unfold elabTy
  cases attrsProxy f.attributes <;> rfl

theorem ronField_run {f : PField} {v : Val} {st : WSt Char} (hvars : st.vars = [])
    (hs : self.lookup f.nm = some ⟨f.ty.full, N.ty f.ty.full, v⟩) (ht : HasTy env (N.ty f.ty.full) v)
    (ho : OptionIs N f) (hsk : attrsSkip f.attributes = false) :
    runAll (ronW env N fl) self (genSerRonField f) st =
      some { st with out := st.out ++ commaEach (ronItem env fl true (elabField N .ron f) v) } := by
  obtain ⟨vars, flags, out⟩ := st
  subst hvars
  have hkey : (elabField N .ron f).key = (attrsRename f.attributes).getD f.nm := rfl
  have hty : (elabField N .ron f).ty = N.ty f.ty.full := elabTy_ron f
  have hon : (elabField N .ron f).optSyn = decide (f.ty.base = "Option".toList) := rfl
  have hv0 : (ronW env N fl).sees [] true = true := sees_nil _
  unfold genSerRonField
  rw [ronItem, show (elabField N .ron f).skip = attrsSkip f.attributes from rfl, hsk, hkey, hty, hon,
    if_neg (show ¬ (true = true ∧ false = true) by simp), if_pos rfl]
  generalize (attrsRename f.attributes).getD f.nm = k
  have he : (WExpr.self f.nm).eval (ronW env N fl) self [] = some ⟨f.ty.full, N.ty f.ty.full, v⟩ := by rw [WExpr.eval]; exact hs
  by_cases hb : f.ty.base = "Option".toList
  · obtain ⟨t, ht'⟩ := ho hb
    rw [ht'] at ht he
    simp only [if_pos hb]
    rcases hasTy_option ht with rfl | ⟨w, rfl, _⟩
    · rw [step_ifLet_none (st := ⟨[], flags, out⟩) he (runAll_nil _), runAll_nil, if_pos ⟨by simp [hb], rfl⟩]; simp [commaEach]
    · have hbody : runAll (ronW env N fl) self [.op (.field k), .write (.var "t".toList), .op .conl]
          ⟨[("t".toList, ⟨[], t, w⟩)], flags, out⟩ =
          some ⟨[("t".toList, ⟨[], t, w⟩)], flags, out ++ (k ++ [':']) ++ serRon env fl t w ++ [',']⟩ := by
        rw [step_op (sees_t _ _), step_write (by exact sees_t _ _) (by exact lookup_t _ _), step_op (by exact sees_t _ _), runAll_nil]
        rfl
      rw [step_ifLet_some (st := ⟨[], flags, out⟩) he hbody, runAll_nil, if_neg (by simp [Val.isNone]), ht', serRon]
      simp [commaEach, ronMember]
  · simp only [if_neg hb]
    rw [step_op hv0, step_write (by exact hv0) (by exact he), step_op (by exact hv0), runAll_nil,
      if_neg (by rw [decide_eq_true_eq]; exact fun h => hb h.1)]
    simp [commaEach, ronMember, ronW]

theorem ronFields_run : ∀ (fs : List PField) (vs : List Val) (st : WSt Char), st.vars = [] →
    HoldsIn N self (fs.zip vs) → FieldsTy env (fs.map (elabField N .ron)) vs → (∀ f ∈ fs, OptionIs N f) →
    runAll (ronW env N fl) self ((fs.filter fun f => !attrsSkip f.attributes).flatMap genSerRonField) st =
      some { st with out := st.out ++ commaEach (serRonFields env fl true (fs.map (elabField N .ron)) vs) } := by
  intro fs
  induction fs with
  | nil =>
    intro vs st h0 _ ht _
    cases vs <;> simp [runAll_nil, serRonFields, commaEach]
  | cons f fs ih =>
    intro vs st h0 hh ht ho
    cases vs with
    | nil => simp [FieldsTy] at ht
    | cons v vs =>
      rw [List.map_cons, FieldsTy] at ht
      rw [List.map_cons, serRonFields_cons, commaEach_append, List.filter_cons]
      cases hsk : attrsSkip f.attributes with
      | true =>
        rw [if_neg (by simp), ih vs st h0 hh.tail ht.2 (fun g hg => ho g (List.mem_cons_of_mem _ hg)), ronItem,
          show (elabField N .ron f).skip = attrsSkip f.attributes from rfl, hsk, if_pos ⟨rfl, rfl⟩]
        simp [commaEach]
      | false =>
        have hty : HasTy env (N.ty f.ty.full) v := by
          have := ht.1
          rwa [show (elabField N .ron f).ty = N.ty f.ty.full from elabTy_ron f] at this
        rw [if_pos (by simp), List.flatMap_cons, runAll_append, ronField_run h0 hh.head hty (ho f (by simp)) hsk,
          Option.bind_some, ih vs _ (by exact h0) hh.tail ht.2 (fun g hg => ho g (List.mem_cons_of_mem _ hg)), List.append_assoc]

theorem ronItems_run : ∀ (fs : List PField) (vs : List Val) (st : WSt Char),
    HoldsIn N st.vars (fs.zip vs) → FieldsTy env (fs.map (elabField N .ron)) vs → (∀ f ∈ fs, OptionIs N f) →
    (ronW env N fl).sees st.vars true = true →
    runAll (ronW env N fl) self (fs.flatMap genSerRonItem) st =
      some { st with out := st.out ++ commaEach (serRonFields env fl false (fs.map (elabField N .ron)) vs) } := by
  intro fs
  induction fs with
  | nil =>
    intro vs st _ ht _ _
    cases vs <;> simp [runAll_nil, serRonFields, commaEach]
  | cons f fs ih =>
    intro vs st hh ht ho hv
    cases vs with
    | nil => simp [FieldsTy] at ht
    | cons v vs =>
      rw [List.map_cons, FieldsTy] at ht
      rw [List.map_cons, serRonFields_cons, commaEach_append, List.flatMap_cons, runAll_append]
      have hty : (elabField N .ron f).ty = N.ty f.ty.full := elabTy_ron f
      have hon : (elabField N .ron f).optSyn = decide (f.ty.base = "Option".toList) := rfl
      have he : (WExpr.var f.nm).eval (ronW env N fl) self st.vars = some ⟨f.ty.full, N.ty f.ty.full, v⟩ := by
        rw [WExpr.eval]; exact hh.head
      have hw : runAll (ronW env N fl) self [.op (.field f.nm), .write (.var f.nm), .op .conl] st =
          some { st with out := st.out ++ commaEach [ronMember f.nm (serRon env fl (N.ty f.ty.full) v)] } := by
        rw [step_op hv, step_write (by exact hv) (by exact he), step_op (by exact hv), runAll_nil]
        simp [commaEach, ronMember, ronW]
      have hone : runAll (ronW env N fl) self (genSerRonItem f) st =
          some { st with out := st.out ++ commaEach (ronItem env fl false (elabField N .ron f) v) } := by
        unfold genSerRonItem
        rw [ronItem, hty, hon, if_neg (show ¬ (false = true ∧ _) from fun h => by cases h.1),
          show (elabField N .ron f).name = f.nm from rfl, if_neg (show ¬ false = true by decide)]
        by_cases hb : f.ty.base = "Option".toList
        · obtain ⟨t, ht'⟩ := ho f (by simp) hb
          have h1 := ht.1
          rw [hty, ht'] at h1
          simp only [if_pos hb]
          rcases hasTy_option h1 with rfl | ⟨w, rfl, _⟩
          · rw [step_ifSome_none he, runAll_nil, if_pos ⟨by simp [hb], rfl⟩]; simp [commaEach]
          · rw [step_ifSome_some he hw, runAll_nil, if_neg (by simp [Val.isNone])]
        · simp only [if_neg hb]
          rw [hw, if_neg (by rw [decide_eq_true_eq]; exact fun h => hb h.1)]
      rw [hone, Option.bind_some, ih vs _ (by exact hh.tail) ht.2 (fun g hg => ho g (List.mem_cons_of_mem _ hg)) (by exact hv), List.append_assoc]

end NS.Derive
