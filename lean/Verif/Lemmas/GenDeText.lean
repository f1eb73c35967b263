import Verif.Lemmas.GenDeBin
import Verif.Model.Ron

/-!
# The generated text readers: members of structs
-/

namespace NS.Derive
open NS

/-- Two computations with related results. -/
def Same {ε σ α β : Type} (R : α → β → Prop) (x : M ε σ α) (y : M ε σ β) : Prop :=
  ∀ (δ : Type) (k : α → M ε σ δ) (k' : β → M ε σ δ), (∀ a b, R a b → k a = k' b) → (x >>= k) = (y >>= k')

section
variable {ε σ α β γ : Type} {R : α → β → Prop}

theorem Same.pure {a : α} {b : β} (h : R a b) : Same R (Pure.pure a : M ε σ α) (Pure.pure b) := by
  intro δ k k' hk
  simpa using hk a b h

theorem Same.bind {x : M ε σ γ} {f : γ → M ε σ α} {g : γ → M ε σ β} (h : ∀ c, Same R (f c) (g c)) :
    Same R (x >>= f) (x >>= g) := by
  intro δ k k' hk
  simp only [bind_assoc]
  congr 1
  funext c
  exact h c δ k k' hk

theorem Same.seq {α' β' : Type} {R' : α' → β' → Prop} {x : M ε σ α} {y : M ε σ β} {f : α → M ε σ α'} {g : β → M ε σ β'}
    (h : Same R x y) (hf : ∀ a b, R a b → Same R' (f a) (g b)) : Same R' (x >>= f) (y >>= g) := by
  intro δ k k' hk
  simp only [bind_assoc]
  exact h δ _ _ fun a b hab => hf a b hab δ k k' hk

theorem Same.fail {z : M ε σ γ} {f : γ → M ε σ α} {g : γ → M ε σ β} (h : ∀ s, ∃ e, z s = .err e s) :
    Same R (z >>= f) (z >>= g) := by
  intro δ k k' _
  funext s
  obtain ⟨e, he⟩ := h s
  simp only [bind_assoc]
  rw [M.bind_def, M.bind_def, he]

end

theorem loop_same {α β : Type} {R : α → β → Prop} {t : Tok} {body : α → PM α} {body' : β → PM β}
    (h : ∀ a b, R a b → Same R (body a) (body' b)) : ∀ (n : Nat) (a : α) (b : β), R a b →
    Same R (loopM (fun st : PSt => st.tok == t) body n a) (whileIs t body' n b) := by
  intro n
  induction n with
  | zero => intro a b _ δ k k' _; funext s; rfl
  | succ n ih =>
    intro a b hab
    unfold loopM whileIs
    refine Same.bind fun st => ?_
    by_cases ht : st.tok = t
    · rw [if_pos (by simpa using ht), if_pos ht]
      exact Same.seq (h a b hab) fun a' b' hr => ih a' b' hr
    · rw [if_neg (by simpa using ht), if_neg ht]
      exact Same.pure hab

theorem lookup_find {β γ : Type} (key : β → Txt) (g : β → γ) (k : Txt) : ∀ (l : List β),
    (l.map fun b => (key b, g b)).lookup k = (l.find? fun b => key b == k).map g := by
  intro l
  induction l with
  | nil => rfl
  | cons b bs ih =>
    rw [List.map_cons, List.lookup_cons, List.find?_cons]
    by_cases h : key b = k
    · subst h; simp
    · rw [show (k == key b) = false by simpa using fun e : k = key b => h e.symm, show (key b == k) = false by simpa using h]
      exact ih

theorem find_at {β : Type} (p : β → Bool) : ∀ (l : List β), l.find? p = (l.findIdx? p).bind fun i => l[i]? := by
  intro l
  induction l with
  | nil => rfl
  | cons b bs ih =>
    rw [List.find?_cons, List.findIdx?_cons]
    cases h : p b with
    | true => rfl
    | false => simp [ih]; cases List.findIdx? p bs <;> simp

theorem find_filter {β : Type} (p q : β → Bool) : ∀ (l : List β), (l.filter p).find? q = l.find? fun b => p b && q b := by
  intro l
  induction l with
  | nil => rfl
  | cons b bs ih =>
    cases h : p b with
    | true => rw [List.filter_cons_of_pos h, List.find?_cons, List.find?_cons, h, ih]; rfl
    | false => rw [List.filter_cons_of_neg (by simp [h]), List.find?_cons, h, ih]; rfl

theorem findSome_unique {β γ : Type} {g : β → Option γ} {a : γ} : ∀ (l : List β), (∃ b ∈ l, g b = some a) →
    (∀ b ∈ l, g b = none ∨ g b = some a) → l.findSome? g = some a := by
  intro l
  induction l with
  | nil => rintro ⟨b, hb, _⟩ _; simp at hb
  | cons b bs ih =>
    rintro ⟨c, hc, hg⟩ h
    rw [List.findSome?_cons]
    rcases h b (List.mem_cons_self ..) with hb | hb
    · rw [hb]
      rcases List.mem_cons.1 hc with rfl | hc
      · rw [hb] at hg; cases hg
      · exact ih ⟨c, hc, hg⟩ fun b hb => h b (List.mem_cons_of_mem _ hb)
    · rw [hb]

/-- What the locals amount to. -/
structure Sim (ron : Bool) (conv : PField → Val → Val) (fields : List PField) (L : Locals) (acc : List (Option Val)) : Prop where
  acc : acc = fields.map fun f => if attrsSkip f.attributes then none else ((L.lookup (localVar f)).join).map (conv f)
  has : ∀ f ∈ fields, (attrsSkip f.attributes = false ∨ ron = true) → ∃ o, L.lookup (localVar f) = some o
  skipped : ron = true → ∀ f ∈ fields, attrsSkip f.attributes = true → L.lookup (localVar f) = some none

theorem localVar_inj {f g : PField} (h : localVar f = localVar g) : f.nm = g.nm := by
  simpa [localVar] using h

theorem nm_at {fields : List PField} (hd : (fields.map PField.nm).Pairwise (· ≠ ·)) : ∀ {i j : Nat} {f g : PField},
    fields[i]? = some f → fields[j]? = some g → f.nm = g.nm → i = j := by
  induction fields with
  | nil => intro i j f g h; simp at h
  | cons x xs ih =>
    rw [List.map_cons, List.pairwise_cons] at hd
    intro i j f g hi hj he
    cases i with
    | zero =>
      cases j with
      | zero => rfl
      | succ j =>
        simp only [List.getElem?_cons_zero, Option.some.injEq] at hi
        subst hi
        exact absurd he (hd.1 _ (List.mem_map_of_mem (List.mem_of_getElem? (by simpa using hj))))
    | succ i =>
      cases j with
      | zero =>
        simp only [List.getElem?_cons_zero, Option.some.injEq] at hj
        subst hj
        exact absurd he.symm (hd.1 _ (List.mem_map_of_mem (List.mem_of_getElem? (by simpa using hi))))
      | succ j => exact congrArg (· + 1) (ih hd.2 (f := f) (g := g) (by simpa using hi) (by simpa using hj) he)

theorem Sim.set {ron : Bool} {conv : PField → Val → Val} {fields : List PField} {L : Locals} {acc : List (Option Val)}
    (h : Sim ron conv fields L acc) (hd : (fields.map PField.nm).Pairwise (· ≠ ·)) {i : Nat} {f : PField}
    (hf : fields[i]? = some f) (hs : attrsSkip f.attributes = false) (v : Val) :
    Sim ron conv fields ((localVar f, some v) :: L) (acc.set i (some (conv f v))) := by
  have hother : ∀ g ∈ fields, g.nm ≠ f.nm → List.lookup (localVar g) ((localVar f, some v) :: L) = L.lookup (localVar g) := by
    intro g _ hne
    rw [List.lookup_cons, show (localVar g == localVar f) = false by simpa using fun e => hne (localVar_inj e)]
  have hself : ∀ g : PField, g.nm = f.nm → List.lookup (localVar g) ((localVar f, some v) :: L) = some (some v) := by
    intro g he
    rw [List.lookup_cons, show localVar g = localVar f by rw [localVar, localVar, he]]
    simp
  refine ⟨?_, ?_, ?_⟩
  · apply List.ext_getElem?
    intro j
    rw [List.getElem?_set, h.acc, List.length_map, List.getElem?_map, List.getElem?_map]
    cases hj : fields[j]? with
    | none =>
      have := List.getElem?_eq_none_iff.1 hj
      by_cases hij : i = j
      · subst hij; rw [hf] at hj; cases hj
      · rw [if_neg hij]; rfl
    | some g =>
      by_cases hij : i = j
      · subst hij
        rw [hf] at hj
        cases hj
        rw [if_pos rfl, if_pos (List.getElem?_eq_some_iff.1 hf).1]
        simp only [Option.map_some, hs, hself f rfl]
        rfl
      · rw [if_neg hij]
        have hne : g.nm ≠ f.nm := fun he => hij (nm_at hd hf hj he.symm)
        simp only [Option.map_some, hother g (List.mem_of_getElem? hj) hne]
  · intro g hg hs'
    by_cases he : g.nm = f.nm
    · exact ⟨_, hself g he⟩
    · rw [hother g hg he]; exact h.has g hg hs'
  · intro hr g hg hs'
    have hne : g.nm ≠ f.nm := by
      intro he
      obtain ⟨j, hj⟩ := List.mem_iff_getElem?.1 hg
      have := nm_at hd hf hj he.symm
      subst this
      rw [hf] at hj
      cases hj
      rw [hs] at hs'; cases hs'
    rw [hother g hg hne]; exact h.skipped hr g hg hs'

/-- Declaring the locals. -/
theorem letNone_run {ε σ : Type} (C : RCtx ε σ) (ty : Txt → Option (Bool × Txt)) (a : PField → Option Txt) (rest : List RStmt) :
    ∀ (fs : List PField) (L : Locals), ∃ L', runStmts C ty (fs.map (fun f => .letNone (localVar f) (a f)) ++ rest) L =
      runStmts C ty rest L' ∧ (∀ f ∈ fs, L'.lookup (localVar f) = some none) ∧
      ∀ x, L.lookup x = some none → L'.lookup x = some none := by
  intro fs
  induction fs with
  | nil => intro L; exact ⟨L, rfl, by simp, fun _ h => h⟩
  | cons f fs ih =>
    intro L
    obtain ⟨L', h1, h2, h3⟩ := ih ((localVar f, none) :: L)
    have h4 : ∀ x, L.lookup x = some none → List.lookup x ((localVar f, none) :: L) = some none := by
      intro x hx
      rw [List.lookup_cons]
      cases hb : x == localVar f with
      | true => rfl
      | false => exact hx
    refine ⟨L', ?_, fun g hg => ?_, fun x hx => h3 x (h4 x hx)⟩
    · rw [← h1]
      show ((Pure.pure ((localVar f, none) :: L) : M ε σ Locals) >>= fun L' => runStmts C ty _ L') = _
      rfl
    · rcases List.mem_cons.1 hg with rfl | hg
      · exact h3 _ (by rw [List.lookup_cons]; simp)
      · exact h2 g hg

/-! ## Arms for variants -/

theorem genArms_const {β : Type} (g : PField → Option β) : ∀ (ws : List PField) (k : Nat),
    genArmsFrom (fun _ => g) k ws = allSome (ws.map g) := by
  intro ws
  induction ws with
  | nil => intro k; rfl
  | cons w ws ih => intro k; rw [genArmsFrom, List.map_cons, allSome, ih]

theorem allSome_eq {β γ : Type} {f : β → Option γ} (d : γ) : ∀ {l : List β} {r : List γ}, allSome (l.map f) = some r →
    r = l.map fun b => (f b).getD d := by
  intro l
  induction l with
  | nil => intro r h; cases h; rfl
  | cons b bs ih =>
    intro r h
    rw [List.map_cons, allSome] at h
    cases hb : f b with
    | none => rw [hb] at h; cases h
    | some a =>
      cases hx : allSome (bs.map f) with
      | none => rw [hb, hx] at h; cases h
      | some ys => rw [hb, hx] at h; cases h; rw [List.map_cons, hb, ← ih hx]; rfl

theorem arms_lookup {γ : Type} (p : PField → Bool) (key : PField → Txt) (blk : PField → γ) (ws : List PField) (k : Txt) :
    ((ws.filter p).map fun w => (key w, blk w)).lookup k =
      ((ws.findIdx? fun w => p w && key w == k).bind fun j => ws[j]?).map blk := by
  rw [lookup_find, find_filter, find_at]

theorem numbered_snd {β : Type} (ty : β → Txt) (k : Nat) (l : List β) : (numbered ty k l).map Prod.snd = l.map ty := by
  have h : (numbered ty k l).map Prod.snd = ((l.zipIdx k).map Prod.fst).map ty := by
    rw [numbered, List.map_map, List.map_map]; rfl
  rw [h, zipIdx_fst]

/-- The arguments of a tuple, each followed by a separator. -/
theorem eat_args {C : RCtx PErr PSt} {L : Locals} {o : ROp} {ts : List Txt} :
    eachM (fun t => (RInit.callThen o).run C L t) ts = deTysEat (C.de C.fuel) (C.op o) (ts.map C.N.ty) := by
  rw [deTysEat_each, eachM_map]
  rfl

/-- One field initialiser. -/
def unwrapOne (cd : Bool) (f : Field) (o : Option Val) : PM Val :=
  match (if f.skip then none else o) with
  | some v => pure v
  | none =>
    if f.skip || f.optSyn || cd || f.dfltAttr.isSome then pure (f.dfltAttr.getD f.tyDefault)
    else errNf f.name

theorem unwrap_cons (cd : Bool) (f : Field) (o : Option Val) (fs : List Field) (os : List (Option Val)) :
    unwrapFields cd (f :: fs) (o :: os) =
      unwrapOne cd f o >>= fun a => unwrapFields cd fs os >>= fun as => pure (a :: as) := by
  unfold unwrapOne
  rw [unwrapFields]
  cases (if f.skip then none else o) with
  | some v => rfl
  | none =>
    simp only
    split <;> rfl

end NS.Derive
