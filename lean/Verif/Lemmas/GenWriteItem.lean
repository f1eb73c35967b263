import Verif.Lemmas.GenWriteText

/-!
# Whole generated writers
-/

namespace NS.Derive
open NS

variable {env : Env} {N : Names} {fl : FloatOps}

theorem run_stmts {α : Type} {C : WCtx α} {ss : List WStmt} {fields : List (Txt × TV)} {st : WSt α}
    (h : runAll C fields ss {} = some st) : (WBody.stmts ss).run C (.struct fields) = some st.out := by
  rw [WBody.run, h]; rfl

theorem bin_named {s : PStruct} (hn : s.named = true) (hd : (s.fields.map PField.nm).Pairwise (· ≠ ·)) {vs : List Val}
    (ht : FieldsTy env (s.fields.map (elabField N .bin)) vs) :
    (genSerBinStruct s).run (binW env N) (structSelf N s vs) = some (serBinFields env true (s.fields.map (elabField N .bin)) vs) := by
  obtain ⟨st, h1, h2⟩ := binFields_run (env := env) s.fields vs {} (holdsIn_zipWith N s.fields vs hd) ht (sees_nil _)
  rw [structSelf, if_pos hn, genSerBinStruct, run_stmts h1, h2]
  rfl

theorem bin_tuple {s : PStruct} (hn : s.named = false) (hs : ∀ f ∈ s.fields, attrsSkip f.attributes = false) {vs : List Val}
    (ht : TysTy env (s.fields.map (elabTupleTy N .bin)) vs) :
    (genSerBinTuple s).run (binW env N) (structSelf N s vs) = some (serBinTys env (s.fields.map (elabTupleTy N .bin)) vs) := by
  obtain ⟨st, h1, h2⟩ := binTuple_run (env := env) s.fields vs 0 {} (holdsAt_tupleTV N _ vs 0) ht hs (sees_nil _)
  rw [structSelf, if_neg (by rw [hn]; decide), genSerBinTuple, run_stmts h1, h2]
  rfl

theorem json_named {s : PStruct} (hn : s.named = true) (hd : (s.fields.map PField.nm).Pairwise (· ≠ ·)) {vs : List Val}
    (ht : FieldsTy env (s.fields.map (elabField N .json)) vs) (ho : ∀ f ∈ s.fields, OptionIs N f)
    (hp : ∀ f ∈ s.fields, ProxyIs env N f) :
    (genSerJsonStruct s).run (jsonW env N fl) (structSelf N s vs) =
      some ('{' :: (joinSep [','] (serJsonFields env fl (attrsNoneAsNull s.attributes) (s.fields.map (elabField N .json)) vs) ++ ['}'])) := by
  obtain ⟨st, h1, h2, h3⟩ := jsonFields_run (fl := fl) (as := s.attributes) s.fields vs
    ⟨[], [(firstFlag, false)], ['{']⟩ false rfl (holdsIn_zipWith N s.fields vs hd) ht ho hp (by simp [FlagIs])
  have hall : runAll (jsonW env N fl) (List.zipWith (fieldTV N) s.fields vs)
      (.op .stPre :: (.letFlag firstFlag :: s.fields.flatMap (genSerJsonField s.attributes)) ++ [.op .stPost]) {} =
      some { st with out := st.out ++ ['}'] } := by
    rw [List.cons_append, step_op (sees_nil _), List.cons_append, runAll_cons, WStmt.run, Option.bind_some, runAll_append]
    show Option.bind (runAll _ _ _ ⟨[], [(firstFlag, false)], ['{']⟩) _ = _
    rw [h1, Option.bind_some, step_op (by rw [h2]; exact sees_nil _), runAll_nil]
    rfl
  rw [structSelf, if_pos hn, genSerJsonStruct, run_stmts hall]
  show some (st.out ++ ['}']) = _
  rw [h3, joinSep_withSep]
  simp

theorem jsonW_push (t : Txt) : (jsonW env N fl).op (.push t) = t := rfl
theorem ronW_push (t : Txt) : (ronW env N fl).op (.push t) = t := rfl

theorem elabTupleTy_text {fmt : Fmt} (h : fmt ≠ .bin) (fs : List PField) :
    fs.map (elabTupleTy N fmt) = (fs.map (·.ty)).map fun t => N.ty t.full := by
  rw [List.map_map]
  apply List.map_congr_left
  intro f _
  cases fmt with
  | bin => exact absurd rfl h
  | json => rfl
  | ron => rfl

theorem json_tuple {s : PStruct} (hn : s.named = false) {vs : List Val}
    (ht : TysTy env (s.fields.map (elabTupleTy N .json)) vs) :
    (genSerJsonTuple s).run (jsonW env N fl) (structSelf N s vs) =
      some (if (s.fields.map (elabTupleTy N .json)).isEmpty then ['{', '}']
        else if attrsTransparent s.attributes ∧ (s.fields.map (elabTupleTy N .json)).length = 1 then
          joinSep [] (serJsonTys env fl (s.fields.map (elabTupleTy N .json)) vs)
        else '[' :: (joinSep [',', ' '] (serJsonTys env fl (s.fields.map (elabTupleTy N .json)) vs) ++ [']'])) := by
  have hl : (s.fields.map (·.ty)).length = vs.length := by
    have := tysTy_length ht
    simpa using this
  have hh := holdsAt_tupleTV N (s.fields.map (·.ty)) vs 0
  rw [structSelf, if_neg (by rw [hn]; decide), genSerJsonTuple, List.isEmpty_map, List.length_map, elabTupleTy_text (by decide),
    serJsonTys_comp]
  cases hf : s.fields.isEmpty with
  | true =>
    rw [if_pos rfl, if_pos rfl]
    rw [run_stmts (st := ⟨[], [], ['{', '}']⟩)]
    rw [step_op (sees_nil _), step_op (by exact sees_nil _), runAll_nil]; rfl
  | false =>
    rw [if_neg (show ¬ false = true by decide), if_neg (show ¬ false = true by decide)]
    by_cases htr : attrsTransparent s.attributes = true ∧ s.fields.length = 1
    · rw [if_pos htr, if_pos htr]
      clear hf ht
      generalize s.fields = fs at *
      match fs, vs, htr.2 with
      | [f], [v], _ =>
        rw [run_stmts (st := ⟨[], [], serJson env fl (N.ty f.ty.full) v⟩)]
        · rfl
        · rw [step_write (v := ⟨f.ty.full, N.ty f.ty.full, v⟩) (sees_nil _) (by
            rw [WExpr.eval]; exact hh.head), runAll_nil]
          rfl
      | [f], [], _ => simp at hl
      | [f], _ :: _ :: _, _ => simp at hl
    · rw [if_neg htr, if_neg htr]
      have h1 := selfItems_run (D := jsonW env N fl) jsonW_push (s.fields.map (·.ty)) vs 0 ⟨[], [], ['[']⟩ hh hl (sees_nil _)
      rw [List.length_map] at h1
      rw [run_stmts (st := ⟨[], [], ['['] ++ joinSep [',', ' '] (compTexts N (serJson env fl) (s.fields.map (·.ty)) vs) ++ [']']⟩)]
      · simp
      · rw [List.append_assoc, List.singleton_append, step_op (sees_nil _), runAll_append]
        show Option.bind (runAll _ _ _ ⟨[], [], ['[']⟩) _ = _
        rw [h1, Option.bind_some, step_op (by exact sees_nil _), runAll_nil]
        rfl

theorem ron_named {s : PStruct} (hn : s.named = true) (hd : (s.fields.map PField.nm).Pairwise (· ≠ ·)) {vs : List Val}
    (ht : FieldsTy env (s.fields.map (elabField N .ron)) vs) (ho : ∀ f ∈ s.fields, OptionIs N f) :
    (genSerRonStruct s).run (ronW env N fl) (structSelf N s vs) =
      some ('(' :: (commaEach (serRonFields env fl true (s.fields.map (elabField N .ron)) vs) ++ [')'])) := by
  have h1 := ronFields_run (fl := fl) s.fields vs ⟨[], [], ['(']⟩ rfl (holdsIn_zipWith N s.fields vs hd) ht ho
  rw [structSelf, if_pos hn, genSerRonStruct]
  rw [run_stmts (st := ⟨[], [], ['('] ++ commaEach (serRonFields env fl true (s.fields.map (elabField N .ron)) vs) ++ [')']⟩)]
  · simp
  · rw [List.cons_append, step_op (sees_nil _), runAll_append]
    show Option.bind (runAll _ _ _ ⟨[], [], ['(']⟩) _ = _
    rw [h1, Option.bind_some, step_op (by exact sees_nil _), runAll_nil]
    rfl

theorem ron_tuple {s : PStruct} (hn : s.named = false) (hne : s.fields ≠ []) (hs : ∀ f ∈ s.fields, attrsSkip f.attributes = false)
    {vs : List Val} (ht : TysTy env (s.fields.map (elabTupleTy N .ron)) vs) :
    ∃ body, genSerRonTuple s = some body ∧ body.run (ronW env N fl) (structSelf N s vs) =
      some ('(' :: (joinSep [',', ' '] (serRonTys env fl (s.fields.map (elabTupleTy N .ron)) vs) ++ [')'])) := by
  have hl : (s.fields.map (·.ty)).length = vs.length := by
    have := tysTy_length ht
    simpa using this
  have hh := holdsAt_tupleTV N (s.fields.map (·.ty)) vs 0
  have h1 := selfItems_run (D := ronW env N fl) ronW_push (s.fields.map (·.ty)) vs 0 ⟨[], [], ['(']⟩ hh hl (sees_nil _)
  rw [List.length_map] at h1
  have hpos : 0 < s.fields.length := List.length_pos_iff.2 hne
  refine ⟨_, by rw [genSerRonTuple, if_neg (by simpa using hne)], ?_⟩
  rw [structSelf, if_neg (by rw [hn]; decide), elabTupleTy_text (by decide), serRonTys_comp,
    ronTuple_gen s.fields 0 (s.fields.length - 1) hs (by omega)]
  rw [run_stmts (st := ⟨[], [], ['('] ++ joinSep [',', ' '] (compTexts N (serRon env fl) (s.fields.map (·.ty)) vs) ++ [')']⟩)]
  · simp
  · rw [List.cons_append, step_op (sees_nil _), runAll_append]
    show Option.bind (runAll _ _ _ ⟨[], [], ['(']⟩) _ = _
    rw [h1, Option.bind_some, step_op (by exact sees_nil _), runAll_nil]
    rfl

/-! ## Enums -/

theorem allSome_get {β : Type} : ∀ {l : List (Option β)} {r : List β}, allSome l = some r → ∀ {j : Nat} {b : β}, r[j]? = some b →
    l[j]? = some (some b) := by
  intro l
  induction l with
  | nil => intro r h j b hb; cases h; simp at hb
  | cons x xs ih =>
    intro r h j b hb
    rw [allSome] at h
    cases x with
    | none => cases h
    | some a =>
      cases hx : allSome xs with
      | none => rw [hx] at h; cases h
      | some ys =>
        rw [hx] at h
        cases h
        cases j with
        | zero => simpa using hb
        | succ j => simpa using ih hx (by simpa using hb)

theorem allSome_none {β : Type} : ∀ {l : List (Option β)} {r : List β}, allSome l = some r → ∀ x ∈ l, ∃ b, x = some b := by
  intro l
  induction l with
  | nil => intro r h x hx; simp at hx
  | cons y ys ih =>
    intro r h x hx
    rw [allSome] at h
    cases y with
    | none => cases h
    | some a =>
      cases hy : allSome ys with
      | none => rw [hy] at h; cases h
      | some zs =>
        rcases List.mem_cons.1 hx with rfl | hx
        · exact ⟨a, rfl⟩
        · exact ih hy x hx

/-- The variant of the declaration that a typed value belongs to. -/
theorem variant_at {fmt : Fmt} {ws : List PField} {vars : List Variant} (he : allSome (ws.map (elabVariant N fmt)) = some vars)
    {j : Nat} {var : Variant} (hj : vars[j]? = some var) : ∃ w, ws[j]? = some w ∧ elabVariant N fmt w = some var := by
  have := allSome_get he hj
  rw [List.getElem?_map, Option.map_eq_some_iff] at this
  exact this

/-- The limits of the generated writer for one variant. -/
def VarOK (fmt : Fmt) (w : PField) : Prop :=
  match w.ty.cat with
  | .anonymous s => (s.fields.map PField.nm).Pairwise (· ≠ ·) ∧ "s".toList ∉ s.fields.map PField.nm ∧
      (fmt ≠ .bin → "d".toList ∉ s.fields.map PField.nm) ∧
      (fmt = .json → ∀ f ∈ s.fields, attrsProxy f.attributes = none ∨ f.ty.base = "Option".toList)
  | .tuple ts => fmt = .bin ∨ ts ≠ []
  | _ => True

/-- The shapes of a variant. -/
theorem elabVariant_cases {fmt : Fmt} {w : PField} {var : Variant} (h : elabVariant N fmt w = some var) :
    var.name = w.nm ∧ var.rename = attrsRename w.attributes ∧
    ((w.ty.cat = .none ∧ w.ty.wraps = none ∧ var.shape = .unit) ∨
     (∃ s, w.ty.cat = .anonymous s ∧ var.shape = .named (s.fields.map (elabVariantField N fmt))) ∨
     (∃ ts, w.ty.cat = .tuple ts ∧ var.shape = .tuple (ts.map fun t => N.ty t.full))) := by
  unfold elabVariant at h
  cases hs : elabShape N fmt w.ty with
  | none => rw [hs] at h; cases h
  | some sh =>
    rw [hs] at h
    simp only [Option.map_some, Option.some.injEq] at h
    subst h
    refine ⟨rfl, rfl, ?_⟩
    unfold elabShape at hs
    split at hs
    · rename_i h1 h2; cases hs; exact Or.inl ⟨h1, h2, rfl⟩
    · rename_i s h1; cases hs; exact Or.inr (Or.inl ⟨s, h1, rfl⟩)
    · rename_i ts h1; cases hs; exact Or.inr (Or.inr ⟨ts, h1, rfl⟩)
    · cases hs

theorem binArm_name (n : Nat) (w : PField) (a : WPat × List WStmt) (h : genSerBinArm n w = some a) : a.1.name = w.nm := by
  unfold genSerBinArm at h
  split at h <;> cases h <;> rfl

theorem jsonArm_name (w : PField) (a : WPat × List WStmt) (h : genSerJsonArm w = some a) : a.1.name = w.nm := by
  unfold genSerJsonArm at h
  simp only at h
  split at h <;> cases h <;> rfl

theorem ronArm_name (w : PField) (a : WPat × List WStmt) (h : genSerRonArm w = some a) : a.1.name = w.nm := by
  unfold genSerRonArm at h
  split at h <;> cases h <;> rfl

/-- A typed variant value. -/
theorem hasTy_variant {i j : Nat} {vars : List Variant} (hd : env.defs[i]? = some (.enum vars)) {vs : List Val}
    (ht : HasTy env (.named i) (.variant j vs)) : ∃ var, vars[j]? = some var ∧
      (var.shape = .unit → vs = []) ∧ (∀ ts, var.shape = .tuple ts → TysTy env ts vs) ∧
      (∀ fs, var.shape = .named fs → FieldsTy env fs vs) := by
  rw [HasTy, hd] at ht
  simp only at ht
  cases hv : vars[j]? with
  | none => rw [hv] at ht; exact ht.elim
  | some var =>
    obtain ⟨nm, rn, sh⟩ := var
    rw [hv] at ht
    refine ⟨_, rfl, ?_⟩
    cases sh with
    | unit => exact ⟨fun _ => ht, fun _ h => (by cases h), fun _ h => (by cases h)⟩
    | tuple ts => exact ⟨fun h => (by cases h), fun _ h => (by cases h; exact ht), fun _ h => (by cases h)⟩
    | named fs => exact ⟨fun h => (by cases h), fun _ h => (by cases h), fun _ h => (by cases h; exact ht)⟩

theorem range_range' (n : Nat) : List.range n = List.range' 0 n := List.range_eq_range' ..

theorem serBin_u16 {n : Nat} : (binW env N).ser (.int .u16) (.int n) = leBytes 2 (toTwos 2 n) := by
  show serBin env _ _ = _
  rw [serBin]
  · rfl
  · intro h; cases h

theorem toTwos_nat {n : Nat} (h : n < 65536) : toTwos 2 (n : Int) = n := by
  unfold toTwos
  omega

/-- What an arm of the binary writer does. -/
theorem binArm_run {j : Nat} {w : PField} {var : Variant} {vs : List Val} (he : elabVariant N .bin w = some var)
    (hok : VarOK .bin w) (hj : j < 65536) (hu : var.shape = .unit → vs = [])
    (htu : ∀ ts, var.shape = .tuple ts → TysTy env ts vs) (hna : ∀ fs, var.shape = .named fs → FieldsTy env fs vs)
    {a : WPat × List WStmt} (ha : genSerBinArm j w = some a) :
    ∃ kind fields vars st, variantSelf N w vs = .variant w.nm kind fields ∧ a.1.bind w.nm kind fields = some (some vars) ∧
      runAll (binW env N) [] a.2 { vars := vars } = some st ∧
      st.out = (match var.shape with
        | .unit => leBytes 2 j
        | .tuple ts => leBytes 2 j ++ serBinTys env ts vs
        | .named fs => leBytes 2 j ++ serBinFields env false fs vs) := by
  obtain ⟨_, _, h⟩ := elabVariant_cases he
  have htag : ∀ vars, (WExpr.u16 j).eval (binW env N) [] vars = some ⟨"u16".toList, .int .u16, .int j⟩ := by
    intro vars
    rw [WExpr.eval, if_pos (by omega)]
  have hout : (binW env N).ser (.int .u16) (.int j) = leBytes 2 j := by rw [serBin_u16, toTwos_nat hj]
  rcases h with ⟨hc, hw, hs⟩ | ⟨s, hc, hs⟩ | ⟨ts, hc, hs⟩
  · rw [genSerBinArm, hc, hw] at ha
    cases ha
    refine ⟨none, [], [], ⟨[], [], leBytes 2 j⟩, by rw [variantSelf, hc]; rfl, by simp [WPat.bind], ?_, by rw [hs]⟩
    rw [step_write (sees_nil _) (htag _), runAll_nil, hout]
    rfl
  · rw [genSerBinArm, hc] at ha
    cases ha
    have hf := hna _ hs
    have hl : s.fields.length = vs.length := by simpa using fieldsTy_length hf
    unfold VarOK at hok
    rw [hc] at hok
    have hsees := sees_named (C := binW env N) N s.fields vs hok.2.1 (fun h => by cases h) true
    obtain ⟨st, h1, h2⟩ := binNamed_run (self := []) (env := env) s.fields vs
      ⟨List.zipWith (fieldTV N) s.fields vs, [], leBytes 2 j⟩ (holdsIn_zipWith N s.fields vs hok.1) hl hsees
    refine ⟨some true, _, _, st, by rw [variantSelf, hc]; rfl, named_bind N _ _ _ hl hok.1, ?_, by rw [hs]; exact h2⟩
    rw [step_write hsees (htag _), ← h1, hout]
    rfl
  · rw [genSerBinArm, hc] at ha
    cases ha
    have hf := htu _ hs
    have hl : ts.length = vs.length := by simpa using tysTy_length hf
    have hsees := sees_tuple (C := binW env N) (List.range ts.length) ((tupleTV N 0 ts vs).map Prod.snd) true
    obtain ⟨st, h1, h2⟩ := binVars_run (self := []) (env := env) ts vs 0
      ⟨((List.range ts.length).map fN).zip ((tupleTV N 0 ts vs).map Prod.snd), [], leBytes 2 j⟩
      (by rw [range_range']; exact holdsAt_zip N ts vs 0 0 hl) hl hsees
    refine ⟨some false, _, _, st, by rw [variantSelf, hc]; rfl, tuple_bind N _ _ _ hl, ?_, by rw [hs]; exact h2⟩
    rw [step_write hsees (htag _), hout]
    rw [← range_range'] at h1
    exact h1

theorem bin_enum {e : PEnum} {vars : List Variant} (he : allSome (e.variants.map (elabVariant N .bin)) = some vars)
    (hlen : e.variants.length ≤ 65536) (hd : (e.variants.map PField.nm).Pairwise (· ≠ ·)) (hok : ∀ w ∈ e.variants, VarOK .bin w) :
    ∃ body, genSerBinEnum e = some body ∧ ∀ (env : Env) (i : Nat), env.defs[i]? = some (.enum vars) → ∀ (j : Nat) (vs : List Val),
      HasTy env (.named i) (.variant j vs) → ∀ w, e.variants[j]? = some w →
        body.run (binW env N) (variantSelf N w vs) = some (serBin env (.named i) (.variant j vs)) := by
  have hall : ∀ n, ∀ w ∈ e.variants, ∃ a, genSerBinArm n w = some a := by
    intro n w hw
    obtain ⟨var, hv⟩ := allSome_none he _ (List.mem_map_of_mem hw)
    rcases (elabVariant_cases hv).2.2 with ⟨hc, hw, _⟩ | ⟨s, hc, _⟩ | ⟨ts, hc, _⟩
    · exact ⟨_, by rw [genSerBinArm, hc, hw]⟩
    · exact ⟨_, by rw [genSerBinArm, hc]⟩
    · exact ⟨_, by rw [genSerBinArm, hc]⟩
  obtain ⟨arms, harms⟩ := genArmsFrom_some e.variants 0 hall
  refine ⟨.matchSelf arms, by rw [genSerBinEnum, harms]; rfl, fun env i hdef j vs ht w hw => ?_⟩
  obtain ⟨var, hj, hu, htu, hna⟩ := hasTy_variant hdef ht
  obtain ⟨w', hw', hev⟩ := variant_at he hj
  rw [hw] at hw'
  cases hw'
  have hjl : j < 65536 := by
    have := (List.getElem?_eq_some_iff.1 hw).1
    omega
  obtain ⟨b, hb⟩ := hall j w (List.mem_of_getElem? hw)
  obtain ⟨kind, fields, vars', st, h1, h2, h3, h4⟩ := binArm_run (env := env) hev (hok w (List.mem_of_getElem? hw)) hjl hu htu hna
    hb
  obtain ⟨a, ha, hrun⟩ := runArms_at (C := binW env N) (k := kind) (fields := fields) binArm_name e.variants 0 arms harms hd j hw
  rw [Nat.zero_add] at ha
  rw [hb] at ha
  cases ha
  rw [h1, WBody.run, hrun _ h2, h3]
  show some st.out = _
  rw [h4, serBin, hdef]
  simp only [hj]
  obtain ⟨nm, rn, sh⟩ := var
  cases sh <;> rfl

/-- What an arm of the JSON writer does. -/
theorem jsonArm_run {w : PField} {var : Variant} {vs : List Val} (he : elabVariant N .json w = some var)
    (hok : VarOK .json w) (hu : var.shape = .unit → vs = [])
    (htu : ∀ ts, var.shape = .tuple ts → TysTy env ts vs) (hna : ∀ fs, var.shape = .named fs → FieldsTy env fs vs)
    (ho : ∀ s, w.ty.cat = .anonymous s → ∀ f ∈ s.fields, OptionIs N f ∧ ProxyIs env N f)
    {a : WPat × List WStmt} (ha : genSerJsonArm w = some a) :
    ∃ kind fields vars st, variantSelf N w vs = .variant w.nm kind fields ∧ a.1.bind w.nm kind fields = some (some vars) ∧
      runAll (jsonW env N fl) [] a.2 { vars := vars } = some st ∧
      st.out = (match var.shape with
        | .unit => jsonLabel (var.rename.getD var.name)
        | .tuple ts => '{' :: (jsonMember (var.rename.getD var.name) ('[' :: (joinSep [','] (serJsonTys env fl ts vs) ++ [']'])) ++ ['}'])
        | .named fs => '{' :: (jsonMember (var.rename.getD var.name) ('{' :: (serJsonVarFields env fl fs vs ++ ['}'])) ++ ['}'])) := by
  obtain ⟨hnm, hrn, h⟩ := elabVariant_cases he
  rw [hnm, hrn]
  unfold genSerJsonArm at ha
  simp only at ha
  generalize (attrsRename w.attributes).getD w.nm = k at ha ⊢
  rcases h with ⟨hc, hw, hs⟩ | ⟨s, hc, hs⟩ | ⟨ts, hc, hs⟩
  · rw [hc, hw] at ha
    cases ha
    refine ⟨none, [], [], ⟨[], [], jsonLabel k⟩, by rw [variantSelf, hc]; rfl, by simp [WPat.bind], ?_, by rw [hs]⟩
    rw [step_op (sees_nil _), runAll_nil]
    rfl
  · rw [hc] at ha
    cases ha
    have hf := hna _ hs
    have hl : s.fields.length = vs.length := by simpa using fieldsTy_length hf
    unfold VarOK at hok
    rw [hc] at hok
    have hsees := sees_named (C := jsonW env N fl) N s.fields vs hok.2.1 (fun _ => hok.2.2.1 (by decide)) true
    obtain ⟨st, h1, h2, h3⟩ := jsonItems_run (self := []) (env := env) (fl := fl) s.fields vs
      ⟨List.zipWith (fieldTV N) s.fields vs, [], '{' :: (jsonLabel k ++ [':', '{'])⟩ (holdsIn_zipWith N s.fields vs hok.1) hf
      (fun f hf => (ho s hc f hf).1) (fun f hf => (ho s hc f hf).2) (hok.2.2.2 rfl) hsees
    refine ⟨some true, _, _, { st with out := st.out ++ ['}', '}'] }, by rw [variantSelf, hc]; rfl, named_bind N _ _ _ hl hok.1, ?_, ?_⟩
    · simp only [List.append_assoc, List.cons_append, List.nil_append]
      rw [step_op hsees, step_op (by exact hsees), step_op (by exact hsees), step_op (by exact hsees), runAll_append]
      have : runAll (jsonW env N fl) [] (genSerJsonItems s.fields) ⟨List.zipWith (fieldTV N) s.fields vs, [],
          [] ++ (jsonW env N fl).op (.push ['{']) ++ (jsonW env N fl).op (.label k) ++ (jsonW env N fl).op (.push [':']) ++
            (jsonW env N fl).op .stPre⟩ = some st := by
        rw [← h1]
        congr 2
        simp [jsonW, jsonLabel]
      refine Eq.trans (congrArg (fun x => Option.bind x _) this) ?_
      rw [Option.bind_some, step_op (by rw [h2]; exact hsees), step_op (by rw [h2]; exact hsees), runAll_nil]
      simp [jsonW]
    · rw [hs]
      show st.out ++ _ = _
      rw [h3]
      simp [jsonMember]
      rfl
  · have hf := htu _ hs
    have hl : ts.length = vs.length := by simpa using tysTy_length hf
    have hsees := sees_tuple (C := jsonW env N fl) (List.range ts.length) ((tupleTV N 0 ts vs).map Prod.snd) true
    unfold VarOK at hok
    rw [hc] at hok
    have ha' : a = (WPat.tuple w.nm ((List.range ts.length).map fN),
        [.op (.push ['{']), .op (.label k), .op (.push [':']), .op (.push ['['])] ++ genTupleItems [','] 0 ts.length ++
          [.op (.push [']']), .op (.push ['}'])]) := by
      rw [hc] at ha
      cases ts with
      | nil => exact absurd rfl (hok.resolve_left (by decide))
      | cons => cases ha; rfl
    subst ha'
    have h1 := tupleItems_run (self := []) (D := jsonW env N fl) jsonW_push [','] ts vs 0
      ⟨((List.range ts.length).map fN).zip ((tupleTV N 0 ts vs).map Prod.snd), [], '{' :: (jsonLabel k ++ [':', '['])⟩
      (by rw [range_range']; exact holdsAt_zip N ts vs 0 0 hl) hl hsees
    refine ⟨some false, _, _, ⟨((List.range ts.length).map fN).zip ((tupleTV N 0 ts vs).map Prod.snd), [], '{' :: (jsonLabel k ++ [':', '[']) ++
      joinSep [','] (compTexts N (serJson env fl) ts vs) ++ [']', '}']⟩, by rw [variantSelf, hc]; rfl, tuple_bind N _ _ _ hl, ?_, ?_⟩
    · simp only [List.append_assoc, List.cons_append, List.nil_append]
      rw [step_op hsees, step_op (by exact hsees), step_op (by exact hsees), step_op (by exact hsees), runAll_append]
      have : runAll (jsonW env N fl) [] (genTupleItems [','] 0 ts.length) ⟨((List.range ts.length).map fN).zip ((tupleTV N 0 ts vs).map Prod.snd), [],
          [] ++ (jsonW env N fl).op (.push ['{']) ++ (jsonW env N fl).op (.label k) ++ (jsonW env N fl).op (.push [':']) ++
            (jsonW env N fl).op (.push ['['])⟩ = some ⟨((List.range ts.length).map fN).zip ((tupleTV N 0 ts vs).map Prod.snd), [],
              '{' :: (jsonLabel k ++ [':', '[']) ++ joinSep [','] (compTexts N (serJson env fl) ts vs)⟩ := by
        refine Eq.trans ?_ h1
        congr 2
        simp [jsonW, jsonLabel]
      refine Eq.trans (congrArg (fun x => Option.bind x _) this) ?_
      rw [Option.bind_some, step_op (by exact hsees), step_op (by exact hsees), runAll_nil]
      simp [jsonW]
    · rw [hs]
      simp only [serJsonTys_comp]
      simp [jsonMember]

theorem json_enum {e : PEnum} {vars : List Variant} (he : allSome (e.variants.map (elabVariant N .json)) = some vars)
    (hd : (e.variants.map PField.nm).Pairwise (· ≠ ·)) (hok : ∀ w ∈ e.variants, VarOK .json w) :
    ∃ body, genSerJsonEnum e = some body ∧ ∀ (env : Env) (i : Nat), env.defs[i]? = some (.enum vars) →
      (∀ w ∈ e.variants, ∀ s, w.ty.cat = .anonymous s → ∀ f ∈ s.fields, OptionIs N f ∧ ProxyIs env N f) →
      ∀ (j : Nat) (vs : List Val), HasTy env (.named i) (.variant j vs) → ∀ w, e.variants[j]? = some w →
        body.run (jsonW env N fl) (variantSelf N w vs) = some (serJson env fl (.named i) (.variant j vs)) := by
  have hall : ∀ (_ : Nat), ∀ w ∈ e.variants, ∃ a, genSerJsonArm w = some a := by
    intro n w hw
    obtain ⟨var, hv⟩ := allSome_none he _ (List.mem_map_of_mem hw)
    rcases (elabVariant_cases hv).2.2 with ⟨hc, hw, _⟩ | ⟨s, hc, _⟩ | ⟨ts, hc, _⟩
    · exact ⟨_, by simp only [genSerJsonArm]; rw [hc, hw]⟩
    · exact ⟨_, by simp only [genSerJsonArm]; rw [hc]⟩
    · have := hok w hw
      unfold VarOK at this
      rw [hc] at this
      cases ts with
      | nil => exact absurd rfl (this.resolve_left (by decide))
      | cons t ts => exact ⟨_, by simp only [genSerJsonArm]; rw [hc]⟩
  obtain ⟨arms, harms⟩ := genArmsFrom_some (g := fun _ => genSerJsonArm) e.variants 0 hall
  refine ⟨.matchSelf arms, by rw [genSerJsonEnum, harms]; rfl, fun env i hdef ho j vs ht w hw => ?_⟩
  obtain ⟨var, hj, hu, htu, hna⟩ := hasTy_variant hdef ht
  obtain ⟨w', hw', hev⟩ := variant_at he hj
  rw [hw] at hw'
  cases hw'
  have hm := List.mem_of_getElem? hw
  obtain ⟨b, hb⟩ := hall j w hm
  obtain ⟨kind, fields, vars', st, h1, h2, h3, h4⟩ := jsonArm_run (env := env) (fl := fl) hev (hok w hm) hu htu hna (ho w hm)
    hb
  obtain ⟨a, ha, hrun⟩ := runArms_at (C := jsonW env N fl) (k := kind) (fields := fields) (g := fun _ => genSerJsonArm)
    (fun _ => jsonArm_name) e.variants 0 arms harms hd j hw
  rw [hb] at ha
  cases ha
  rw [h1, WBody.run, hrun _ h2, h3]
  show some st.out = _
  rw [h4, serJson, hdef]
  simp only [hj]
  obtain ⟨nm, rn, sh⟩ := var
  cases sh <;> rfl

/-- What an arm of the RON writer does. -/
theorem ronArm_run {w : PField} {var : Variant} {vs : List Val} (he : elabVariant N .ron w = some var)
    (hok : VarOK .ron w) (hu : var.shape = .unit → vs = [])
    (htu : ∀ ts, var.shape = .tuple ts → TysTy env ts vs) (hna : ∀ fs, var.shape = .named fs → FieldsTy env fs vs)
    (ho : ∀ s, w.ty.cat = .anonymous s → ∀ f ∈ s.fields, OptionIs N f)
    {a : WPat × List WStmt} (ha : genSerRonArm w = some a) :
    ∃ kind fields vars st, variantSelf N w vs = .variant w.nm kind fields ∧ a.1.bind w.nm kind fields = some (some vars) ∧
      runAll (ronW env N fl) [] a.2 { vars := vars } = some st ∧
      st.out = (match var.shape with
        | .unit => var.name
        | .tuple ts => var.name ++ '(' :: (joinSep [','] (serRonTys env fl ts vs) ++ [')'])
        | .named fs => var.name ++ '(' :: (commaEach (serRonFields env fl false fs vs) ++ [')'])) := by
  obtain ⟨hnm, hrn, h⟩ := elabVariant_cases he
  rw [hnm]
  unfold genSerRonArm at ha
  rcases h with ⟨hc, hw, hs⟩ | ⟨s, hc, hs⟩ | ⟨ts, hc, hs⟩
  · rw [hc] at ha
    cases ha
    refine ⟨none, [], [], ⟨[], [], w.nm⟩, by rw [variantSelf, hc]; rfl, by simp [WPat.bind], ?_, by rw [hs]⟩
    rw [step_op (sees_nil _), runAll_nil]
    rfl
  · rw [hc] at ha
    cases ha
    have hf := hna _ hs
    have hl : s.fields.length = vs.length := by simpa using fieldsTy_length hf
    unfold VarOK at hok
    rw [hc] at hok
    have hsees := sees_named (C := ronW env N fl) N s.fields vs hok.2.1 (fun _ => hok.2.2.1 (by decide)) true
    have h1 := ronItems_run (self := []) (env := env) (fl := fl) s.fields vs
      ⟨List.zipWith (fieldTV N) s.fields vs, [], [] ++ w.nm ++ ['(']⟩ (holdsIn_zipWith N s.fields vs hok.1) hf (ho s hc) hsees
    refine ⟨some true, _, _, ⟨List.zipWith (fieldTV N) s.fields vs, [], [] ++ w.nm ++ ['('] ++
      commaEach (serRonFields env fl false (s.fields.map (elabField N .ron)) vs) ++ [')']⟩,
      by rw [variantSelf, hc]; rfl, named_bind N _ _ _ hl hok.1, ?_, ?_⟩
    · simp only [List.append_assoc, List.cons_append, List.nil_append]
      rw [step_op hsees, step_op (by exact hsees), runAll_append]
      refine Eq.trans (congrArg (fun x => Option.bind x _) h1) ?_
      rw [Option.bind_some, step_op (by exact hsees), runAll_nil]
      simp [ronW]
    · rw [hs]
      simp
      rfl
  · have hf := htu _ hs
    have hl : ts.length = vs.length := by simpa using tysTy_length hf
    have hsees := sees_tuple (C := ronW env N fl) (List.range ts.length) ((tupleTV N 0 ts vs).map Prod.snd) true
    unfold VarOK at hok
    rw [hc] at hok
    have ha' : a = (WPat.tuple w.nm ((List.range ts.length).map fN),
        [.op (.push w.nm), .op (.push ['('])] ++ genTupleItems [','] 0 ts.length ++ [.op (.push [')'])]) := by
      rw [hc] at ha
      cases ts with
      | nil => exact absurd rfl (hok.resolve_left (by decide))
      | cons => cases ha; rfl
    subst ha'
    have h1 := tupleItems_run (self := []) (D := ronW env N fl) ronW_push [','] ts vs 0
      ⟨((List.range ts.length).map fN).zip ((tupleTV N 0 ts vs).map Prod.snd), [], [] ++ w.nm ++ ['(']⟩
      (by rw [range_range']; exact holdsAt_zip N ts vs 0 0 hl) hl hsees
    refine ⟨some false, _, _, ⟨((List.range ts.length).map fN).zip ((tupleTV N 0 ts vs).map Prod.snd), [], [] ++ w.nm ++ ['('] ++
      joinSep [','] (compTexts N (serRon env fl) ts vs) ++ [')']⟩, by rw [variantSelf, hc]; rfl, tuple_bind N _ _ _ hl, ?_, ?_⟩
    · simp only [List.append_assoc, List.cons_append, List.nil_append]
      rw [step_op hsees, step_op (by exact hsees), runAll_append]
      refine Eq.trans (congrArg (fun x => Option.bind x _) h1) ?_
      rw [Option.bind_some, step_op (by exact hsees), runAll_nil]
      simp [ronW]
    · rw [hs]
      simp only [serRonTys_comp]
      simp

theorem ron_enum {e : PEnum} {vars : List Variant} (he : allSome (e.variants.map (elabVariant N .ron)) = some vars)
    (hd : (e.variants.map PField.nm).Pairwise (· ≠ ·)) (hok : ∀ w ∈ e.variants, VarOK .ron w) :
    ∃ body, genSerRonEnum e = some body ∧ ∀ (env : Env) (i : Nat), env.defs[i]? = some (.enum vars) →
      (∀ w ∈ e.variants, ∀ s, w.ty.cat = .anonymous s → ∀ f ∈ s.fields, OptionIs N f) →
      ∀ (j : Nat) (vs : List Val), HasTy env (.named i) (.variant j vs) → ∀ w, e.variants[j]? = some w →
        body.run (ronW env N fl) (variantSelf N w vs) = some (serRon env fl (.named i) (.variant j vs)) := by
  have hall : ∀ (_ : Nat), ∀ w ∈ e.variants, ∃ a, genSerRonArm w = some a := by
    intro n w hw
    obtain ⟨var, hv⟩ := allSome_none he _ (List.mem_map_of_mem hw)
    rcases (elabVariant_cases hv).2.2 with ⟨hc, hw, _⟩ | ⟨s, hc, _⟩ | ⟨ts, hc, _⟩
    · exact ⟨_, by rw [genSerRonArm, hc]⟩
    · exact ⟨_, by rw [genSerRonArm, hc]⟩
    · have := hok w hw
      unfold VarOK at this
      rw [hc] at this
      cases ts with
      | nil => exact absurd rfl (this.resolve_left (by decide))
      | cons t ts => exact ⟨_, by rw [genSerRonArm, hc]⟩
  obtain ⟨arms, harms⟩ := genArmsFrom_some (g := fun _ => genSerRonArm) e.variants 0 hall
  refine ⟨.matchSelf arms, by rw [genSerRonEnum, harms]; rfl, fun env i hdef ho j vs ht w hw => ?_⟩
  obtain ⟨var, hj, hu, htu, hna⟩ := hasTy_variant hdef ht
  obtain ⟨w', hw', hev⟩ := variant_at he hj
  rw [hw] at hw'
  cases hw'
  have hm := List.mem_of_getElem? hw
  obtain ⟨b, hb⟩ := hall j w hm
  obtain ⟨kind, fields, vars', st, h1, h2, h3, h4⟩ := ronArm_run (env := env) (fl := fl) hev (hok w hm) hu htu hna (ho w hm)
    hb
  obtain ⟨a, ha, hrun⟩ := runArms_at (C := ronW env N fl) (k := kind) (fields := fields) (g := fun _ => genSerRonArm)
    (fun _ => ronArm_name) e.variants 0 arms harms hd j hw
  rw [hb] at ha
  cases ha
  rw [h1, WBody.run, hrun _ h2, h3]
  show some st.out = _
  rw [h4, serRon, hdef]
  simp only [hj]
  obtain ⟨nm, rn, sh⟩ := var
  cases sh <;> rfl

end NS.Derive
