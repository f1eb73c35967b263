import Verif.Lemmas.GenDe

/-!
# The generated binary readers, for parsed items
-/

namespace NS.Derive
open NS

/-- The proxy of a field, for readers. -/
def ProxyRd (env : Env) (N : Names) (f : PField) : Prop :=
  ∀ p, attrsProxy f.attributes = some p → ∃ px, env.proxies[N.proxy f.ty.full p]? = some px ∧ px.ty = N.ty p

variable {env : Env} {N : Names} {T : List Txt → Option RTarget} {chk : Bool} {d : List Byte} {n : Nat}

theorem bin_init {f : PField} (hp : ProxyRd env N f) (L : Locals) :
    (genDeBinInit f).run (binR env N T chk d n) L f.ty.full = deBin env chk d n (elabTy N .bin f) := by
  unfold genDeBinInit elabTy
  cases h : attrsProxy f.attributes with
  | none => rfl
  | some p =>
    obtain ⟨px, h1, h2⟩ := hp p h
    simp only [RInit.run, RCtx.call, RCtx.back, if_true]
    cases n with
    | zero => rfl
    | succ m =>
      show (deBin env chk d m (N.ty p) >>= fun v => M.ofOption ((env.proxies[N.proxy f.ty.full p]?).map _)) = _
      rw [deBin, h1]
      simp only [h2]
      rfl

theorem eachM_pure {ε σ β γ : Type} (d : β → γ) : ∀ (l : List β), eachM (ε := ε) (σ := σ) (fun b => pure (d b)) l = pure (l.map d) := by
  intro l
  induction l with
  | nil => rfl
  | cons b bs ih => rw [eachM, ih]; rfl

theorem zip_map_map {β γ δ : Type} (f : β → γ) (g : β → δ) (l : List β) : (l.map f).zip (l.map g) = l.map fun b => (f b, g b) := by
  induction l with
  | nil => rfl
  | cons b bs ih => simp [ih]

theorem block_run {ε σ : Type} (C : RCtx ε σ) (e : RCons) : RProg.run C (.block { e := e }) = e.run C [] := by
  show (pure [] >>= fun L => e.run C L >>= fun v => pure () >>= fun _ => pure v) = _
  simp

theorem length_split {β : Type} (q : β → Bool) (l : List β) :
    l.length = (l.filter fun b => !q b).length + (l.filter q).length := by
  induction l with
  | nil => rfl
  | cons b bs ih => cases h : q b <;> simp [h, ih] <;> omega

theorem de_bin_named {p : PStruct} {kind : Option Bool}
    (ht : T selfPath = some ⟨kind, p.fields.map fun f => (f.nm, f.ty.full), .struct⟩)
    (hd : (p.fields.map PField.nm).Pairwise (· ≠ ·)) (hp : ∀ f ∈ p.fields, ProxyRd env N f) (hN : N.Dflt) :
    (genDeBinStruct p).run (binR env N T chk d n) =
      deBinFields (deBin env chk d n) true (p.fields.map (elabField N .bin)) >>= fun vs => pure (.struct vs) := by
  have hlook := lookup_field PField.nm (fun f => f.ty.full) p.fields hd
  rw [genDeBinStruct, block_run, RCons.run]
  have ht' : (binR env N T chk d n).target selfPath = some ⟨kind, p.fields.map fun f => (f.nm, f.ty.full), .struct⟩ := ht
  rw [ht']
  simp only
  rw [runLit_append,
    runLit_map PField.nm (fun f => f.ty.full) genDeBinInit _ (fun b hb => hlook b (List.mem_filter.1 hb).1),
    runLit_map PField.nm (fun f => f.ty.full) (fun _ => .code dfltText) _ (fun b hb => hlook b (List.mem_filter.1 hb).1)]
  have hcode : (fun b : PField => (RInit.code dfltText).run (binR env N T chk d n) [] b.ty.full) =
      fun b => pure (N.dflt b.ty.full) := by
    funext b
    show pure (N.expr b.ty.full dfltText) = _
    rw [show N.expr b.ty.full dfltText = N.dflt b.ty.full from hN _]
  rw [hcode, eachM_pure, deBinFields_each, eachM_map,
    eachM_filter (sk := fun f : PField => attrsSkip f.attributes) (d := fun f => N.dflt f.ty.full) p.fields (fun b _ hs => by
      show (if true = true ∧ attrsSkip b.attributes = true then _ else _) = _
      rw [if_pos ⟨rfl, hs⟩]; rfl)]
  rw [eachM_congr (g := fun b : PField => if true = true ∧ (elabField N Fmt.bin b).skip = true then pure (elabField N Fmt.bin b).tyDefault
      else deBin env chk d n (elabField N Fmt.bin b).ty)
    (g' := fun f : PField => (genDeBinInit f).run (binR env N T chk d n) [] f.ty.full) (p.fields.filter _) (fun b hb => by
      have hb' := List.mem_filter.1 hb
      show (if true = true ∧ attrsSkip b.attributes = true then _ else deBin env chk d n (elabTy N .bin b)) = _
      rw [if_neg (by simpa using hb'.2), bin_init (hp b hb'.1)])]
  simp only [bind_assoc, pure_bind]
  refine eachM_len _ _ _ _ fun vs hl => ?_
  rw [zip_map_map]
  have := lookups_weave PField.nm (fun f => attrsSkip f.attributes) (fun f => N.dflt f.ty.full) p.fields hd vs hl
  rw [inOrder, if_pos, List.map_map]
  · rw [show ((fun f : Txt × Txt => List.lookup f.1 _) ∘ fun f : PField => (f.nm, f.ty.full)) = fun b => List.lookup b.nm _ from rfl,
      this]
    rfl
  · simp only [List.length_map, List.length_append, List.length_zip, hl, Nat.min_self]
    exact length_split _ _

/-- The components of a tuple, by number. -/
def numbered {β : Type} (ty : β → Txt) (k : Nat) (l : List β) : List (Txt × Txt) :=
  (l.zipIdx k).map fun q => (showNat q.2, ty q.1)

theorem zipIdx_fst {β : Type} : ∀ (l : List β) (k : Nat), (l.zipIdx k).map Prod.fst = l := by
  intro l
  induction l with
  | nil => intro k; rfl
  | cons b bs ih => intro k; rw [List.zipIdx_cons, List.map_cons, ih]

theorem zipIdx_le {β : Type} : ∀ (l : List β) (k : Nat), ∀ q ∈ l.zipIdx k, k ≤ q.2 := by
  intro l
  induction l with
  | nil => intro k q hq; simp at hq
  | cons b bs ih =>
    intro k q hq
    rw [List.zipIdx_cons] at hq
    rcases List.mem_cons.1 hq with rfl | hq
    · exact Nat.le_refl _
    · exact Nat.le_of_succ_le (ih (k + 1) q hq)

theorem zipIdx_distinct {β : Type} : ∀ (l : List β) (k : Nat), ((l.zipIdx k).map fun q => showNat q.2).Pairwise (· ≠ ·) := by
  intro l
  induction l with
  | nil => intro k; exact List.Pairwise.nil
  | cons b bs ih =>
    intro k
    rw [List.zipIdx_cons, List.map_cons, List.pairwise_cons]
    refine ⟨fun x hx => ?_, ih (k + 1)⟩
    obtain ⟨q, hq, rfl⟩ := List.mem_map.1 hx
    intro he
    have := zipIdx_le bs (k + 1) q hq
    have : k = q.2 := showNat_inj he
    omega

theorem genDeBinTupleFrom_eq : ∀ (fs : List PField) (k : Nat), (∀ f ∈ fs, attrsSkip f.attributes = false) →
    genDeBinTupleFrom k fs = (fs.zipIdx k).map fun q => (showNat q.2, genDeBinInit q.1) := by
  intro fs
  induction fs with
  | nil => intro k _; rfl
  | cons f fs ih =>
    intro k h
    rw [genDeBinTupleFrom, List.zipIdx_cons, List.map_cons, ih (k + 1) fun g hg => h g (List.mem_cons_of_mem _ hg),
      h f (List.mem_cons_self ..)]
    rfl

theorem de_bin_tuple {p : PStruct} {kind : Option Bool}
    (ht : T selfPath = some ⟨kind, numbered (fun f : PField => f.ty.full) 0 p.fields, .struct⟩)
    (hs : ∀ f ∈ p.fields, attrsSkip f.attributes = false) (hp : ∀ f ∈ p.fields, ProxyRd env N f) :
    ∃ body, genDeBinTuple p = some body ∧ body.run (binR env N T chk d n) =
      deTys (deBin env chk d n) (p.fields.map (elabTupleTy N .bin)) >>= fun vs => pure (.struct vs) := by
  have hf : (p.fields.filter fun f => attrsSkip f.attributes) = [] := by
    rw [List.filter_eq_nil_iff]
    intro f hf
    rw [hs f hf]; decide
  refine ⟨_, by rw [genDeBinTuple, if_neg]; simp only [List.any_eq_true, not_exists, not_and]; intro f hf; rw [hs f hf]; simp, ?_⟩
  rw [block_run, hf, List.map_nil, List.append_nil, genDeBinTupleFrom_eq _ _ hs,
    lit_run (fun q : PField × Nat => showNat q.2) (fun q => q.1.ty.full) (fun q => genDeBinInit q.1) (p.fields.zipIdx 0) ht (zipIdx_distinct _ _),
    deTys_each, eachM_map]
  congr 1
  rw [← eachM_map (fun f : PField => (genDeBinInit f).run (binR env N T chk d n) [] f.ty.full) Prod.fst, zipIdx_fst]
  exact eachM_congr _ fun f hf => bin_init (hp f hf) _

/-! ## Enums -/

theorem genArmsFrom_get {β : Type} {g : Nat → PField → Option β} : ∀ (ws : List PField) (k : Nat) (as : List β),
    genArmsFrom g k ws = some as → as.length = ws.length ∧ ∀ (j : Nat) (w : PField), ws[j]? = some w → ∃ a, as[j]? = some a ∧ g (k + j) w = some a := by
  intro ws
  induction ws with
  | nil => intro k as h; cases h; exact ⟨rfl, fun j w hw => by simp at hw⟩
  | cons x xs ih =>
    intro k as h
    rw [genArmsFrom] at h
    cases hx : g k x with
    | none => rw [hx] at h; cases h
    | some a =>
      cases hr : genArmsFrom g (k + 1) xs with
      | none => rw [hx, hr] at h; cases h
      | some bs =>
        rw [hx, hr] at h
        cases h
        obtain ⟨h1, h2⟩ := ih (k + 1) bs hr
        refine ⟨by simp [h1], fun j w hw => ?_⟩
        cases j with
        | zero => simp only [List.getElem?_cons_zero, Option.some.injEq] at hw; subst hw; exact ⟨a, rfl, hx⟩
        | succ j =>
          obtain ⟨b, hb, hg⟩ := h2 j w (by simpa using hw)
          exact ⟨b, by simpa using hb, by rw [show k + (j + 1) = k + 1 + j by omega]; exact hg⟩

/-- Arms numbered in order. -/
theorem lookup_numbered {β : Type} : ∀ (as : List (Nat × β)) (k : Nat), (∀ j a, as[j]? = some a → a.1 = k + j) → ∀ i,
    as.lookup (k + i) = (as[i]?).map Prod.snd := by
  intro as
  induction as with
  | nil => intro k _ i; rfl
  | cons a as ih =>
    intro k h i
    have h0 : a.1 = k := h 0 a rfl
    rw [List.lookup_cons, h0]
    cases i with
    | zero => simp
    | succ i =>
      rw [show (k + (i + 1) == k) = false by simp]
      have := ih (k + 1) (fun j b hb => by rw [h (j + 1) b (by simpa using hb)]; omega) i
      rw [List.getElem?_cons_succ, ← this, show k + (i + 1) = k + 1 + i by omega]

/-- What the constructor of the variant `w`, number `j`, looks like. -/
def TargetOf (j : Nat) (w : PField) (t : RTarget) : Prop :=
  match w.ty.cat with
  | .anonymous s => t = ⟨some true, s.fields.map fun f => (f.nm, f.ty.full), .variant j⟩
  | .tuple ts => t.kind = some false ∧ t.fields.map Prod.snd = ts.map PType.full ∧ t.build = .variant j
  | _ => t.kind = none ∧ t.build = .variant j

theorem de_bin_arm {j : Nat} {w : PField} {var : Variant} (hv : elabVariant N .bin w = some var) {t : RTarget}
    (ht : T (selfVar w.nm) = some t) (hw : TargetOf j w t)
    (hd : ∀ s, w.ty.cat = .anonymous s → (s.fields.map PField.nm).Pairwise (· ≠ ·)) :
    ∃ e, genDeBinArm j w = some (j, e) ∧ e.run (binR env N T chk d n) [] =
      deBinShape (deBin env chk d n) var.shape >>= fun vs => pure (.variant j vs) := by
  obtain ⟨_, _, h⟩ := elabVariant_cases hv
  have ht' : (binR env N T chk d n).target (selfVar w.nm) = some t := ht
  unfold TargetOf at hw
  unfold genDeBinArm
  rcases h with ⟨hc, hwr, hs⟩ | ⟨s, hc, hs⟩ | ⟨ts, hc, hs⟩
  · rw [hc] at hw
    rw [hc, hwr, hs]
    refine ⟨_, rfl, ?_⟩
    rw [RCons.run, ht']
    simp only [hw.1, if_true, hw.2]
    rfl
  · rw [hc] at hw
    rw [hc, hs]
    refine ⟨_, rfl, ?_⟩
    subst hw
    rw [lit_run PField.nm (fun f => f.ty.full) (fun _ => .call) s.fields ht' (hd s hc), deBinShape, deBinFields_each, eachM_map]
    congr 1
  · rw [hc] at hw
    rw [hc, hs]
    refine ⟨_, rfl, ?_⟩
    obtain ⟨k, fs, bd⟩ := t
    obtain ⟨rfl, h2, rfl⟩ := hw
    rw [app_run PType.full .call ts fs ht' h2 ts rfl, deBinShape, deTys_each, eachM_map]
    rfl

theorem de_bin_enum {e : PEnum} {vars : List Variant} (he : allSome (e.variants.map (elabVariant N .bin)) = some vars)
    (hn : e.variants.length ≤ 65536)
    (hT : ∀ j w, e.variants[j]? = some w → ∃ t, T (selfVar w.nm) = some t ∧ TargetOf j w t)
    (hd : ∀ w ∈ e.variants, ∀ s, w.ty.cat = .anonymous s → (s.fields.map PField.nm).Pairwise (· ≠ ·)) :
    ∃ body, genDeBinEnum e = some body ∧ ∀ (env : Env) (chk : Bool) (d : List Byte) (n : Nat), body.run (binR env N T chk d n) = (do
        let id ← readPrim chk d 2
        match vars[leVal id]? with
        | .some var => do
          let vs ← deBinShape (deBin env chk d n) var.shape
          pure (.variant (leVal id) vs)
        | .none => M.throw ⟨0, .unknownDiscriminant (leVal id)⟩) := by
  have hlen : vars.length = e.variants.length := by
    have : ∀ (l : List (Option Variant)) (r : List Variant), allSome l = some r → r.length = l.length := by
      intro l
      induction l with
      | nil => intro r h; cases h; rfl
      | cons x xs ih =>
        intro r h
        rw [allSome] at h
        cases x with
        | none => cases h
        | some a =>
          cases hx : allSome xs with
          | none => rw [hx] at h; cases h
          | some ys => rw [hx] at h; cases h; simp [ih ys hx]
    simpa using this _ _ he
  obtain ⟨arms, harms⟩ := genArmsFrom_some (g := genDeBinArm) e.variants 0 (fun k w hw => by
    obtain ⟨var, hv⟩ := allSome_none he _ (List.mem_map_of_mem hw)
    obtain ⟨_, _, h⟩ := elabVariant_cases hv
    unfold genDeBinArm
    rcases h with ⟨hc, hwr, _⟩ | ⟨s, hc, _⟩ | ⟨ts, hc, _⟩
    · rw [hc, hwr]; exact ⟨_, rfl⟩
    · rw [hc]; exact ⟨_, rfl⟩
    · rw [hc]; exact ⟨_, rfl⟩)
  obtain ⟨hal, hget⟩ := genArmsFrom_get _ _ _ harms
  have hnum : ∀ j a, arms[j]? = some a → a.1 = 0 + j := by
    intro j a ha
    have hj : j < e.variants.length := by rw [← hal]; exact (List.getElem?_eq_some_iff.1 ha).1
    obtain ⟨b, hb, hg⟩ := hget j _ (List.getElem?_eq_getElem hj)
    rw [ha] at hb
    cases hb
    unfold genDeBinArm at hg
    split at hg <;> first | (cases hg; rfl) | cases hg
  refine ⟨.matchId arms, by rw [genDeBinEnum, harms]; rfl, fun env chk d n => ?_⟩
  have hall : (arms.all fun a => decide (a.1 < 2 ^ 16)) = true := by
    rw [List.all_eq_true]
    intro a ha
    obtain ⟨j, hj⟩ := List.mem_iff_getElem?.1 ha
    have h1 := hnum j a hj
    have h2 := (List.getElem?_eq_some_iff.1 hj).1
    have : a.1 < 2 ^ 16 := by omega
    simpa using this
  · show (if _ then _ else _) = _
    rw [if_pos hall]
    show (deBin env chk d 1 (.int .u16) >>= _) = _
    rw [deBin]
    simp only [bind_assoc, pure_bind]
    show (readPrim chk d 2 >>= _) = _
    congr 1
    funext id
    simp only [show ofTwos IntKind.u16.signed IntKind.u16.bytes (leVal id) = (leVal id : Int) by
      rw [ofTwos, if_neg]; simp [IntKind.signed], Int.toNat_natCast]
    have hl := lookup_numbered arms 0 hnum (leVal id)
    rw [Nat.zero_add] at hl
    rw [hl]
    cases hv : vars[leVal id]? with
    | some var =>
      obtain ⟨w, hw, hev⟩ := variant_at he hv
      obtain ⟨t, h1, h2⟩ := hT _ _ hw
      obtain ⟨a, ha, hg⟩ := hget _ _ hw
      obtain ⟨ec, hec, hrun⟩ := de_bin_arm (env := env) (chk := chk) (d := d) (n := n) hev h1 h2 (hd w (List.mem_of_getElem? hw))
      rw [Nat.zero_add, hec] at hg
      cases hg
      rw [ha]
      simp only [Option.map_some]
      exact hrun
    | none =>
      have : arms[leVal id]? = none := by
        rw [List.getElem?_eq_none_iff] at hv ⊢
        omega
      rw [this]
      rfl
    · intro h; cases h

end NS.Derive
