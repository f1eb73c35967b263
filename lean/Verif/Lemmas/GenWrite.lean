import Verif.Model.GenWrite
import Verif.Lemmas.JsonText

/-!
# Running the generated writers
-/

namespace NS.Derive
open NS

variable {α : Type} {C : WCtx α} {self : List (Txt × TV)}

theorem runAll_append (a b : List WStmt) (st : WSt α) :
    runAll C self (a ++ b) st = (runAll C self a st).bind (runAll C self b) := by
  induction a generalizing st with
  | nil => simp [runAll]
  | cons x xs ih =>
    simp only [List.cons_append, runAll]
    cases x.run C self st with
    | none => rfl
    | some st' => simp [ih]

theorem runAll_cons (x : WStmt) (xs : List WStmt) (st : WSt α) :
    runAll C self (x :: xs) st = (x.run C self st).bind (runAll C self xs) := by
  rw [runAll]

theorem runAll_nil (st : WSt α) : runAll C self [] st = some st := by rw [runAll]

theorem step_write {e : WExpr} {ss : List WStmt} {st : WSt α} {v : TV} (hv : C.sees st.vars true = true)
    (he : e.eval C self st.vars = some v) :
    runAll C self (.write e :: ss) st = runAll C self ss { st with out := st.out ++ C.ser v.ty v.val } := by
  rw [runAll_cons, WStmt.run, if_pos hv, he]; rfl

theorem step_op {o : WOp} {ss : List WStmt} {st : WSt α} (hv : C.sees st.vars true = true) :
    runAll C self (.op o :: ss) st = runAll C self ss { st with out := st.out ++ C.op o } := by
  have : C.sees st.vars o.usesD = true := by
    unfold WCtx.sees at hv ⊢
    rw [Bool.and_eq_true] at hv ⊢
    refine ⟨hv.1, ?_⟩
    cases o.usesD with
    | true => exact hv.2
    | false => simp
  rw [runAll_cons, WStmt.run, if_pos this]; rfl

theorem step_letProxy {e : WExpr} {p : Txt} {ss : List WStmt} {st : WSt α} {v w : TV}
    (he : e.eval C self st.vars = some v) (hi : C.into v p v.val = some w) :
    runAll C self (.letProxy p e :: ss) st = runAll C self ss { st with vars := ("proxy".toList, w) :: st.vars } := by
  rw [runAll_cons, WStmt.run, he, Option.bind_some, hi]; rfl

/-- The lookup of an entry whose name occurs once. -/
theorem lookup_zipWith {β γ δ : Type} (g : β → γ → Txt × δ) (nm : β → Txt) (hg : ∀ b c, (g b c).1 = nm b) :
    ∀ (bs : List β) (cs : List γ), (bs.map nm).Pairwise (· ≠ ·) → ∀ p ∈ bs.zip cs,
      (List.zipWith g bs cs).lookup (nm p.1) = some (g p.1 p.2).2 := by
  intro bs
  induction bs with
  | nil => intro cs _ p hp; simp at hp
  | cons b bs ih =>
    intro cs hd p hp
    cases cs with
    | nil => simp at hp
    | cons c cs =>
      rw [List.map_cons, List.pairwise_cons] at hd
      rw [List.zip_cons_cons, List.mem_cons] at hp
      rw [List.zipWith_cons_cons]
      rcases hp with rfl | hp
      · have := hg b c
        rw [show g b c = (nm b, (g b c).2) from by rw [← this]]
        simp [List.lookup]
      · have hne : nm b ≠ nm p.1 := hd.1 _ (List.mem_map_of_mem (List.of_mem_zip hp).1)
        have h1 := hg b c
        rw [show g b c = (nm b, (g b c).2) from by rw [← h1], List.lookup, show (nm p.1 == nm b) = false from by
          simpa using fun e => hne e.symm]
        exact ih cs hd.2 p hp

/-- Every field of the list is found in `self` with its value. -/
def HoldsIn (N : Names) (self : List (Txt × TV)) (ps : List (PField × Val)) : Prop :=
  ∀ p ∈ ps, self.lookup p.1.nm = some ⟨p.1.ty.full, N.ty p.1.ty.full, p.2⟩

theorem holdsIn_zipWith (N : Names) (fs : List PField) (vs : List Val) (hd : (fs.map PField.nm).Pairwise (· ≠ ·)) :
    HoldsIn N (List.zipWith (fieldTV N) fs vs) (fs.zip vs) :=
  fun p hp => by
    have := lookup_zipWith (fieldTV N) PField.nm (fun _ _ => rfl) fs vs hd p hp
    rw [this]; rfl

theorem HoldsIn.head {N : Names} {f : PField} {v : Val} {ps : List (PField × Val)} (h : HoldsIn N self ((f, v) :: ps)) :
    self.lookup f.nm = some ⟨f.ty.full, N.ty f.ty.full, v⟩ := h (f, v) (by simp)

theorem HoldsIn.tail {N : Names} {q : PField × Val} {ps : List (PField × Val)} (h : HoldsIn N self (q :: ps)) :
    HoldsIn N self ps := fun p hp => h p (List.mem_cons_of_mem _ hp)

/-- What a proxied value looks like. -/
theorem hasTy_proxied {env : Env} {i : Nat} {v : Val} (h : HasTy env (.proxied i) v) :
    ∃ o px, env.proxies[i]? = some px ∧ v = .prox o (px.into o) := by
  cases v <;> rw [HasTy] at h <;> try exact h.elim
  rename_i o p
  split at h
  · rename_i px hpx
    exact ⟨o, px, hpx, by rw [h.2.1]⟩
  · exact h.elim
  all_goals (intros; contradiction)

theorem into_prox {v : TV} {p : Txt} {o q : Val} {px : Proxy}
    (hpx : C.env.proxies[C.N.proxy v.txt p]? = some px) : C.into v p (.prox o q) = some ⟨p, px.ty, px.into o⟩ := by
  unfold WCtx.into
  rw [hpx]

/-! ## Binary -/

theorem sees_proxy {vars : List (Txt × TV)} {b : Bool} {v : TV} (h : C.sees vars b = true) :
    C.sees (("proxy".toList, v) :: vars) b = true := by
  simp only [WCtx.sees] at h ⊢
  rw [List.lookup, show ("s".toList == "proxy".toList) = false from by decide,
    List.lookup, show ("d".toList == "proxy".toList) = false from by decide]
  exact h

theorem binField_run {env : Env} {N : Names} {f : PField} {at_ : Txt} {v : Val} {st : WSt Byte}
    (hs : self.lookup at_ = some ⟨f.ty.full, N.ty f.ty.full, v⟩) (ht : HasTy env (elabTy N .bin f) v)
    (hv : (binW env N).sees st.vars true = true) :
    ∃ st', runAll (binW env N) self (genSerBinField f at_) st = some st' ∧
      (binW env N).sees st'.vars true = true ∧ st'.out = st.out ++ serBin env (elabTy N .bin f) v := by
  unfold genSerBinField
  unfold elabTy at ht ⊢
  cases hp : attrsProxy f.attributes with
  | none =>
    exact ⟨{ st with out := st.out ++ serBin env (N.ty f.ty.full) v }, by
      rw [step_write (v := ⟨f.ty.full, N.ty f.ty.full, v⟩) hv (by rw [WExpr.eval, hs]), runAll_nil]; rfl, hv, rfl⟩
  | some p =>
    rw [hp] at ht
    obtain ⟨o, px, hpx, rfl⟩ := hasTy_proxied ht
    have hv' := sees_proxy (v := ⟨p, px.ty, px.into o⟩) hv
    refine ⟨{ vars := ("proxy".toList, ⟨p, px.ty, px.into o⟩) :: st.vars, flags := st.flags,
              out := st.out ++ serBin env px.ty (px.into o) }, ?_, hv', ?_⟩
    · rw [step_letProxy (by rw [WExpr.eval, hs]) (into_prox (C := binW env N) (p := p) (px := px)
          (v := ⟨f.ty.full, N.ty f.ty.full, .prox o (px.into o)⟩) hpx),
        step_write (st := { vars := ("proxy".toList, ⟨p, px.ty, px.into o⟩) :: st.vars, flags := st.flags, out := st.out })
          (v := ⟨p, px.ty, px.into o⟩) hv' (by simp [WExpr.eval]), runAll_nil]; rfl
    · show st.out ++ serBin env px.ty (px.into o) = _
      congr 1
      rw [serBin, hpx]

theorem binFields_run {env : Env} {N : Names} : ∀ (fs : List PField) (vs : List Val) (st : WSt Byte),
    HoldsIn N self (fs.zip vs) → FieldsTy env (fs.map (elabField N .bin)) vs → (binW env N).sees st.vars true = true →
    ∃ st', runAll (binW env N) self
      ((fs.filter fun f => !attrsSkip f.attributes).flatMap fun f => genSerBinField f f.nm) st = some st' ∧
      st'.out = st.out ++ serBinFields env true (fs.map (elabField N .bin)) vs := by
  intro fs
  induction fs with
  | nil =>
    intro vs st _ _ hv
    exact ⟨st, by simp [runAll_nil], by cases vs <;> simp [serBinFields]⟩
  | cons f fs ih =>
    intro vs st hh ht hv
    cases vs with
    | nil => simp [FieldsTy] at ht
    | cons v vs =>
      rw [List.map_cons, FieldsTy] at ht
      have hb : (elabField N .bin f).skip = attrsSkip f.attributes := rfl
      rw [List.map_cons, serBinFields, hb, List.filter_cons]
      cases hsk : attrsSkip f.attributes with
      | true =>
        obtain ⟨st', h1, h2⟩ := ih vs st hh.tail ht.2 hv
        exact ⟨st', by simpa using h1, by simpa using h2⟩
      | false =>
        obtain ⟨s1, h1, h2, h3⟩ := binField_run (env := env) hh.head ht.1 hv
        obtain ⟨s2, h4, h5⟩ := ih vs s1 hh.tail ht.2 h2
        refine ⟨s2, ?_, ?_⟩
        · rw [if_pos (by rfl), List.flatMap_cons, runAll_append, h1]; exact h4
        · rw [h5, h3, if_neg (by simp), List.append_assoc]; rfl

/-! ### Tuples -/

/-- Numbers are printed differently. -/
theorem showNat_inj {a b : Nat} (h : showNat a = showNat b) : a = b := by
  rw [← decimal_showNat a, h, decimal_showNat]

/-- The components from the one with number `n` on are found, under the names `g n`, `g (n + 1)`, ... -/
def HoldsAt (N : Names) (self : List (Txt × TV)) (g : Nat → Txt) (n : Nat) (ts : List PType) (vs : List Val) : Prop :=
  ∀ (k : Nat) (t : PType) (v : Val), ts[k]? = some t → vs[k]? = some v →
    self.lookup (g (n + k)) = some ⟨t.full, N.ty t.full, v⟩

theorem HoldsAt.head {N : Names} {g : Nat → Txt} {n : Nat} {t : PType} {ts : List PType} {v : Val} {vs : List Val}
    (h : HoldsAt N self g n (t :: ts) (v :: vs)) : self.lookup (g n) = some ⟨t.full, N.ty t.full, v⟩ :=
  h 0 t v rfl rfl

theorem HoldsAt.tail {N : Names} {g : Nat → Txt} {n : Nat} {t : PType} {ts : List PType} {v : Val} {vs : List Val}
    (h : HoldsAt N self g n (t :: ts) (v :: vs)) : HoldsAt N self g (n + 1) ts vs := fun k u w hu hw => by
  rw [Nat.add_assoc, Nat.add_comm 1 k]
  exact h (k + 1) u w (by simpa using hu) (by simpa using hw)

theorem holdsAt_tupleTV (N : Names) : ∀ (ts : List PType) (vs : List Val) (n : Nat),
    HoldsAt N (tupleTV N n ts vs) showNat n ts vs := by
  intro ts
  induction ts with
  | nil => intro vs n k t v h; simp at h
  | cons t ts ih =>
    intro vs n k u w hu hw
    cases vs with
    | nil => simp at hw
    | cons v vs =>
      rw [tupleTV]
      cases k with
      | zero =>
        simp only [List.getElem?_cons_zero, Option.some.injEq] at hu hw
        subst hu hw
        rw [Nat.add_zero, List.lookup, BEq.rfl]
      | succ k =>
        rw [List.lookup, show (showNat (n + (k + 1)) == showNat n) = false from by
          rw [beq_eq_false_iff_ne]
          intro e
          have := showNat_inj e
          omega]
        have := ih vs (n + 1) k u w (by simpa using hu) (by simpa using hw)
        rwa [show n + (k + 1) = n + 1 + k from by omega]

theorem binTuple_run {env : Env} {N : Names} : ∀ (fs : List PField) (vs : List Val) (n : Nat) (st : WSt Byte),
    HoldsAt N self showNat n (fs.map (·.ty)) vs → TysTy env (fs.map (elabTupleTy N .bin)) vs →
    (∀ f ∈ fs, attrsSkip f.attributes = false) → (binW env N).sees st.vars true = true →
    ∃ st', runAll (binW env N) self (genSerBinTupleFrom n fs) st = some st' ∧
      st'.out = st.out ++ serBinTys env (fs.map (elabTupleTy N .bin)) vs := by
  intro fs
  induction fs with
  | nil =>
    intro vs n st _ _ _ hv
    exact ⟨st, by rw [genSerBinTupleFrom, runAll_nil], by cases vs <;> simp [serBinTys]⟩
  | cons f fs ih =>
    intro vs n st hh ht hk hv
    cases vs with
    | nil => simp [TysTy] at ht
    | cons v vs =>
      rw [List.map_cons, TysTy] at ht
      rw [List.map_cons] at hh
      obtain ⟨s1, h1, h2, h3⟩ := binField_run (env := env) hh.head ht.1 hv
      obtain ⟨s2, h4, h5⟩ := ih vs (n + 1) s1 hh.tail ht.2 (fun g hg => hk g (List.mem_cons_of_mem _ hg)) h2
      refine ⟨s2, ?_, ?_⟩
      · rw [genSerBinTupleFrom, hk f (List.mem_cons_self ..), if_neg (by simp), runAll_append, h1]; exact h4
      · rw [h5, h3, List.map_cons, serBinTys, List.append_assoc]; rfl

/-! ### Enums -/

/-- The name in a pattern. -/
def WPat.name : WPat → Txt
  | .unit v => v
  | .tuple v _ => v
  | .named v _ => v

theorem WPat.bind_ne {p : WPat} {v : Txt} {k : Option Bool} {fs : List (Txt × TV)} (h : p.name ≠ v) : p.bind v k fs = none := by
  cases p <;> exact if_neg h

/-- The arm of the `j`-th variant is the one that runs. -/
theorem runArms_at {g : Nat → PField → Option (WPat × List WStmt)}
    (hg : ∀ n w a, g n w = some a → a.1.name = w.nm) {w : PField} {k : Option Bool} {fields : List (Txt × TV)} :
    ∀ (ws : List PField) (n : Nat) (arms : List (WPat × List WStmt)), genArmsFrom g n ws = some arms →
      (ws.map PField.nm).Pairwise (· ≠ ·) → ∀ j, ws[j]? = some w →
      ∃ a, g (n + j) w = some a ∧ ∀ vars, a.1.bind w.nm k fields = some (some vars) →
        runArms C w.nm k fields arms = (runAll C [] a.2 { vars := vars }).map (·.out) := by
  intro ws
  induction ws with
  | nil => intro n arms _ _ j hj; simp at hj
  | cons x xs ih =>
    intro n arms he hd j hj
    rw [genArmsFrom] at he
    cases ha : g n x with
    | none => rw [ha] at he; simp at he
    | some a =>
      rw [ha, Option.bind_some] at he
      cases hr : genArmsFrom g (n + 1) xs with
      | none => rw [hr] at he; simp at he
      | some rest =>
        rw [hr] at he
        simp only [Option.map_some, Option.some.injEq] at he
        subst he
        rw [List.map_cons, List.pairwise_cons] at hd
        cases j with
        | zero =>
          simp only [List.getElem?_cons_zero, Option.some.injEq] at hj
          subst hj
          exact ⟨a, ha, fun vars hb => by rw [runArms, hb]⟩
        | succ j =>
          simp only [List.getElem?_cons_succ] at hj
          obtain ⟨b, hb, hrun⟩ := ih (n + 1) rest hr hd.2 j hj
          refine ⟨b, by rwa [show n + (j + 1) = n + 1 + j from by omega], fun vars hv => ?_⟩
          have hne : a.1.name ≠ w.nm := by
            rw [hg n x a ha]
            exact hd.1 _ (List.mem_map_of_mem (List.mem_of_getElem? hj))
          rw [runArms, WPat.bind_ne hne]
          exact hrun vars hv

theorem genArmsFrom_some {β : Type} {g : Nat → PField → Option β} : ∀ (ws : List PField) (n : Nat),
    (∀ n, ∀ w ∈ ws, ∃ a, g n w = some a) → ∃ as, genArmsFrom g n ws = some as := by
  intro ws
  induction ws with
  | nil => intro n _; exact ⟨[], rfl⟩
  | cons w ws ih =>
    intro n h
    obtain ⟨a, ha⟩ := h n w (by simp)
    obtain ⟨as, has⟩ := ih (n + 1) (fun m x hx => h m x (List.mem_cons_of_mem _ hx))
    exact ⟨a :: as, by rw [genArmsFrom, ha, Option.bind_some, has]; rfl⟩

theorem fN_inj {a b : Nat} (h : fN a = fN b) : a = b := showNat_inj (List.cons.inj h).2

/-- What a tuple pattern binds. -/
theorem holdsAt_zip (N : Names) : ∀ (ts : List PType) (vs : List Val) (n m : Nat), ts.length = vs.length →
    HoldsAt N (((List.range' n ts.length).map fN).zip ((tupleTV N m ts vs).map Prod.snd)) fN n ts vs := by
  intro ts
  induction ts with
  | nil => intro vs n m _ k t v h; simp at h
  | cons t ts ih =>
    intro vs n m hl k u w hu hw
    cases vs with
    | nil => simp at hw
    | cons v vs =>
      rw [tupleTV, List.length_cons, List.range'_succ, List.map_cons, List.map_cons, List.zip_cons_cons]
      cases k with
      | zero =>
        simp only [List.getElem?_cons_zero, Option.some.injEq] at hu hw
        subst hu hw
        rw [Nat.add_zero, List.lookup, BEq.rfl]
      | succ k =>
        rw [List.lookup, show (fN (n + (k + 1)) == fN n) = false from by
          rw [beq_eq_false_iff_ne]
          intro e
          have := fN_inj e
          omega]
        have := ih vs (n + 1) (m + 1) (by simpa using hl) k u w (by simpa using hu) (by simpa using hw)
        rwa [show n + (k + 1) = n + 1 + k from by omega]

theorem tupleTV_length (N : Names) : ∀ (ts : List PType) (vs : List Val) (n : Nat), ts.length = vs.length →
    (tupleTV N n ts vs).length = ts.length := by
  intro ts
  induction ts with
  | nil => intro vs n _; simp [tupleTV]
  | cons t ts ih =>
    intro vs n h
    cases vs with
    | nil => simp at h
    | cons v vs => simp [tupleTV, ih vs (n + 1) (by simpa using h)]

/-- The pattern variables of a tuple do not hide `s` or `d`. -/
theorem sees_tuple (ns : List Nat) (ws : List TV) (b : Bool) : C.sees ((ns.map fN).zip ws) b = true := by
  have : ∀ x : Char, x ≠ 'f' → ((ns.map fN).zip ws).lookup [x] = none := by
    intro x hx
    induction ns generalizing ws with
    | nil => simp
    | cons n ns ih =>
      cases ws with
      | nil => simp
      | cons w ws =>
        rw [List.map_cons, List.zip_cons_cons, List.lookup, show ([x] == fN n) = false from by
          rw [beq_eq_false_iff_ne]
          intro e
          exact hx (List.cons.inj e).1]
        exact ih ws
  unfold WCtx.sees
  rw [show "s".toList = ['s'] from by decide, show "d".toList = ['d'] from by decide, this 's' (by decide), this 'd' (by decide)]
  simp

/-- The pattern variables of a struct variant hide `s` or `d` only if they are called so. -/
theorem sees_named (N : Names) (fs : List PField) (vs : List Val) (hs : "s".toList ∉ fs.map PField.nm)
    (hd : C.deep = true → "d".toList ∉ fs.map PField.nm) (b : Bool) :
    C.sees (List.zipWith (fieldTV N) fs vs) b = true := by
  have : ∀ x : Txt, x ∉ fs.map PField.nm → (List.zipWith (fieldTV N) fs vs).lookup x = none := by
    intro x hx
    clear hs hd
    induction fs generalizing vs with
    | nil => simp
    | cons f fs ih =>
      cases vs with
      | nil => simp
      | cons v vs =>
        rw [List.map_cons, List.mem_cons, not_or] at hx
        rw [List.zipWith_cons_cons, show fieldTV N f v = (f.nm, (fieldTV N f v).2) from rfl, List.lookup,
          show (x == f.nm) = false from by rw [beq_eq_false_iff_ne]; exact hx.1]
        exact ih vs hx.2
  unfold WCtx.sees
  rw [this _ hs]
  cases hc : C.deep with
  | false => simp
  | true => rw [this _ (hd hc)]; simp

theorem allSome_mapF {β γ : Type} {f : β → Option γ} {g : β → γ} : ∀ (bs : List β), (∀ b ∈ bs, f b = some (g b)) →
    allSome (bs.map f) = some (bs.map g) := by
  intro bs
  induction bs with
  | nil => intro _; rfl
  | cons b bs ih =>
    intro h
    rw [List.map_cons, allSome, h b (by simp), Option.bind_some, ih fun x hx => h x (List.mem_cons_of_mem _ hx)]
    rfl

/-- What the pattern of a struct variant binds. -/
theorem named_bind (N : Names) (v : Txt) (fs : List PField) (vs : List Val) (hl : fs.length = vs.length)
    (hd : (fs.map PField.nm).Pairwise (· ≠ ·)) :
    (WPat.named v (fs.map PField.nm)).bind v (some true) (List.zipWith (fieldTV N) fs vs) =
      some (some (List.zipWith (fieldTV N) fs vs)) := by
  simp only [WPat.bind]
  rw [if_pos trivial, if_pos (by simp [hl])]
  have : fs.map PField.nm = (fs.zip vs).map fun p => p.1.nm := by
    rw [show (fun p : PField × Val => p.1.nm) = PField.nm ∘ Prod.fst from rfl, ← List.map_map, List.map_fst_zip (by omega)]
  rw [this, List.map_map, allSome_mapF (g := fun p => fieldTV N p.1 p.2)]
  · rw [List.zip, List.map_zipWith]
  · intro p hp
    show ((List.zipWith (fieldTV N) fs vs).lookup p.1.nm).map _ = _
    rw [holdsIn_zipWith N fs vs hd p hp]
    rfl

theorem tuple_bind (N : Names) (v : Txt) (ts : List PType) (vs : List Val) (hl : ts.length = vs.length) :
    (WPat.tuple v ((List.range ts.length).map fN)).bind v (some false) (tupleTV N 0 ts vs) =
      some (some (((List.range ts.length).map fN).zip ((tupleTV N 0 ts vs).map Prod.snd))) := by
  simp only [WPat.bind]
  rw [if_pos trivial, if_pos (by simp [tupleTV_length N ts vs 0 hl])]

theorem tysTy_length {env : Env} : ∀ {ts : List Ty} {vs : List Val}, TysTy env ts vs → ts.length = vs.length := by
  intro ts
  induction ts with
  | nil => intro vs h; cases vs with
    | nil => rfl
    | cons => simp [TysTy] at h
  | cons t ts ih =>
    intro vs h
    cases vs with
    | nil => simp [TysTy] at h
    | cons v vs => rw [TysTy] at h; simp [ih h.2]

theorem fieldsTy_length {env : Env} : ∀ {fs : List Field} {vs : List Val}, FieldsTy env fs vs → fs.length = vs.length := by
  intro ts
  induction ts with
  | nil => intro vs h; cases vs with
    | nil => rfl
    | cons => simp [FieldsTy] at h
  | cons t ts ih =>
    intro vs h
    cases vs with
    | nil => simp [FieldsTy] at h
    | cons v vs => rw [FieldsTy] at h; simp [ih h.2]

/-- Components of a tuple variant written one after the other. -/
theorem binVars_run {env : Env} {N : Names} : ∀ (ts : List PType) (vs : List Val) (n : Nat) (st : WSt Byte),
    HoldsAt N st.vars fN n ts vs → ts.length = vs.length → (binW env N).sees st.vars true = true →
    ∃ st', runAll (binW env N) self ((List.range' n ts.length).map fun n => .write (.var (fN n))) st = some st' ∧
      st'.out = st.out ++ serBinTys env (ts.map fun t => N.ty t.full) vs := by
  intro ts
  induction ts with
  | nil => intro vs n st _ _ _; exact ⟨st, by simp [runAll_nil], by simp [serBinTys]⟩
  | cons t ts ih =>
    intro vs n st hh hl hv
    cases vs with
    | nil => simp at hl
    | cons v vs =>
      obtain ⟨s2, h4, h5⟩ := ih vs (n + 1) { st with out := st.out ++ serBin env (N.ty t.full) v } hh.tail
        (by simpa using hl) hv
      refine ⟨s2, ?_, ?_⟩
      · rw [List.length_cons, List.range'_succ, List.map_cons,
          step_write (v := ⟨t.full, N.ty t.full, v⟩) hv (by rw [WExpr.eval, hh.head])]
        exact h4
      · rw [h5, List.map_cons, serBinTys, List.append_assoc]

/-- Members of a struct variant written one after the other. -/
theorem binNamed_run {env : Env} {N : Names} : ∀ (fs : List PField) (vs : List Val) (st : WSt Byte),
    HoldsIn N st.vars (fs.zip vs) → fs.length = vs.length → (binW env N).sees st.vars true = true →
    ∃ st', runAll (binW env N) self (fs.map fun f => .write (.var f.nm)) st = some st' ∧
      st'.out = st.out ++ serBinFields env false (fs.map (elabVariantField N .bin)) vs := by
  intro fs
  induction fs with
  | nil => intro vs st _ _ _; exact ⟨st, by simp [runAll_nil], by simp [serBinFields]⟩
  | cons f fs ih =>
    intro vs st hh hl hv
    cases vs with
    | nil => simp at hl
    | cons v vs =>
      obtain ⟨s2, h4, h5⟩ := ih vs { st with out := st.out ++ serBin env (N.ty f.ty.full) v } hh.tail
        (by simpa using hl) hv
      refine ⟨s2, ?_, ?_⟩
      · rw [List.map_cons, step_write (v := ⟨f.ty.full, N.ty f.ty.full, v⟩) hv (by rw [WExpr.eval, hh.head])]
        exact h4
      · rw [h5, List.map_cons, serBinFields, if_neg (by simp), List.append_assoc]; rfl

end NS.Derive
