import Verif.Lemmas.DeriveAttr

/-!
# Reading the variants of an enum
-/

namespace NS.Derive

/-- The tree of a list of named fields in braces. -/
def panon (fs : List RField) : PType :=
  .mk (.anonymous (.mk none true (fs.map pfield) [] [])) (some ((fs.map pfield).map PField.ty)) none none

/-- The tree of a variant's shape. -/
def pshape : RShape → PType
  | .unit => noneTy
  | .disc _ => noneTy
  | .tuple ts => ptype (.tuple ts)
  | .named fs _ => panon fs

/-- The tree of a variant. -/
def pvariant (v : RVariant) : PField := .mk (words v.attrs) (some v.name) (pshape v.shape)

theorem variantRead {v : RVariant} (h : v.WF) : VariantRead v (pvariant v) := by
  refine ⟨rfl, rfl, ?_⟩
  have h2 := h.2
  cases hs : v.shape with
  | unit => simp only [pvariant, hs]; exact ⟨rfl, rfl⟩
  | disc t => simp only [pvariant, hs]; exact ⟨rfl, rfl⟩
  | tuple ts =>
    rw [hs] at h2
    refine ⟨ptypes ts, ?_, ?_⟩
    · cases ts with
      | nil => exact absurd rfl h2.2
      | cons t ts => simp only [pvariant, hs, pshape, ptype, ptypes, PField.ty, PType.cat]
    · rw [ptypes_eq]
      exact matching_map fun t ht => typeRead ((WFList_iff ts).1 h2.1 t ht)
  | named fs trail =>
    rw [hs] at h2
    refine ⟨.mk none true (fs.map pfield) [] [], ?_, matching_map fun f hf => fieldRead (h2 f hf)⟩
    simp only [pvariant, hs, pshape]; rfl

/-- What the type parser does after a variant's name. -/
structure ReadsShape (ty : DM (Option PType)) (s : RShape) : Prop where
  last : s.toks = [] → ty [] = .ok (some noneTy) []
  disc : ∀ t r, s = .disc t → ty (.punct '=' :: t :: r) = .ok (some noneTy) (.punct '=' :: t :: r)
  body : (∀ t, s ≠ .disc t) → s ≠ .unit → ∀ r, Follow r → ty (s.toks ++ r) = .ok (some (pshape s)) r
  sep : ∀ r, ty (.punct ',' :: r) = .ok none r

theorem nextType_eq (n : Nat) (r : List TT) :
    nextType (n + 2) (.punct '=' :: r) = .ok (some noneTy) (.punct '=' :: r) := by
  show typeBody (n + 1) (nextType (n + 1)) (.punct '=' :: r) = _
  rw [typeBody_core (by simp)]
  unfold typeCore
  rw [M.bind_ok (show peek (.punct '=' :: r) = .ok (some (.punct '=')) (.punct '=' :: r) from rfl)]
  simp only
  rw [M.bind_ok (show nextObject (n + 1) (nextType (n + 1)) (.punct '=' :: r) = .ok none (.punct '=' :: r) from rfl)]
  simp only
  rw [M.bind_ok (show nextFunctionLike (nextType (n + 1)) (.punct '=' :: r) = .ok none (.punct '=' :: r) from rfl)]
  simp only
  rw [M.bind_ok (show nextPathType (n + 1) (nextType (n + 1)) none (.punct '=' :: r) = .ok noneTy (.punct '=' :: r) by
    unfold nextPathType
    rw [M.bind_ok (show nextIdent (.punct '=' :: r) = .ok none (.punct '=' :: r) from rfl),
      M.bind_ok (noColons_punct (by decide) r n _)]
    rfl)]
  rfl

theorem nextType_brace {n : Nat} {fs : List RField} (h : ∀ f ∈ fs, f.WF) (ha : ∀ f ∈ fs, ReadsAttrs n f.attrs)
    (ht : ∀ f ∈ fs, Reads (nextType n) f.ty) (hn : 2 * fs.length < n) (trail : Bool) (r : List TT) :
    nextType (n + 1) (.group .brace (listToks (fs.map RField.toks) trail) :: r) = .ok (some (panon fs)) r := by
  show typeBody n (nextType n) _ = _
  rw [typeBody_core (by simp)]
  unfold typeCore
  rw [M.bind_ok (show peek _ = .ok (some (.group .brace (listToks (fs.map RField.toks) trail))) _ from rfl)]
  simp only
  rw [M.bind_ok (show nextStruct n (nextType n) (.group .brace (listToks (fs.map RField.toks) trail) :: r) =
      .ok (.mk none true (fs.map pfield) [] []) r by
    unfold nextStruct
    rw [M.bind_ok (show nextIdent (.group .brace (listToks (fs.map RField.toks) trail) :: r) = .ok none _ from rfl)]
    rw [M.bind_ok (show getAllBounds n (nextType n) (.group .brace (listToks (fs.map RField.toks) trail) :: r) = .ok [] _ from rfl)]
    rw [M.bind_ok (show nextGroup (.group .brace (listToks (fs.map RField.toks) trail) :: r) =
      .ok (some (.brace, listToks (fs.map RField.toks) trail)) r from rfl)]
    simp only
    rw [M.bind_ok (onStream_ok (nextFields_named h ha ht hn trail))]
    rfl)]
  rfl

theorem readsShape_ev {s : RShape} (h : s.WF) : Ev fun n => ReadsShape (nextType n) s := by
  have hsep : Ev fun n => ∀ r, nextType n (.punct ',' :: r) = .ok none r :=
    Ev.succ ⟨0, fun n _ r => rfl⟩
  have hdisc : Ev fun n => ∀ r, nextType n (.punct '=' :: r) = .ok (some noneTy) (.punct '=' :: r) :=
    Ev.succ (Ev.succ ⟨0, fun n _ r => nextType_eq n r⟩)
  have hbody : Ev fun n => (∀ t, s ≠ .disc t) → s ≠ .unit → ∀ r, Follow r →
      nextType n (s.toks ++ r) = .ok (some (pshape s)) r := by
    cases s with
    | unit => exact ⟨0, fun n _ _ hx => absurd rfl hx⟩
    | disc t => exact ⟨0, fun n _ hx => absurd rfl (hx t)⟩
    | tuple ts =>
      refine (reads_ev (t := .tuple ts) h.1).mono fun n hn _ _ r hr => ?_
      have := hn r hr fun e => by simp [RTy.endsObj] at e
      simpa [RTy.toks, RShape.toks, pshape] using this
    | named fs trail =>
      refine Ev.succ ?_
      have h1 : Ev fun n => ∀ f ∈ fs, ReadsAttrs n f.attrs := Ev.list fs fun f hf => readsAttrs_ev (h f hf).1
      have h2 : Ev fun n => ∀ f ∈ fs, Reads (nextType n) f.ty := Ev.list fs fun f hf => reads_ev (h f hf).2.2
      refine ((h1.and h2).and (Ev.gt (2 * fs.length))).mono fun n hn _ _ r _ => ?_
      exact nextType_brace h hn.1.1 hn.1.2 hn.2 trail r
  refine (((hsep.and hdisc).and hbody).and Ev.nil).mono fun n hn => ?_
  exact ⟨fun _ => hn.2, fun t r _ => hn.1.1.2 _, hn.1.2, hn.1.1.1⟩

theorem variant_start {k : Nat} {v : RVariant} (rest : List TT) (m : Nat) (ty) (acc) (ha : ReadsAttrs k v.attrs) :
    variantsLoop k ty (m + 1) acc (v.toks ++ rest) =
      (do
        match ← ty with
        | none => do
          let _ ← nextExactPunct ','
          variantsLoop k ty m (acc ++ [.mk (words v.attrs) (some v.name) (.mk .none none none none)])
        | some t => do
          let _ ← nextExactPunct ';'
          let _ ← nextExactPunct ','
          variantsLoop k ty m (acc ++ [.mk (words v.attrs) (some v.name) t]) : DM (List PField))
        (v.shape.toks ++ rest) := by
  have e : v.toks ++ rest = attrToks v.attrs ++ (.ident v.name :: (v.shape.toks ++ rest)) := by
    simp [RVariant.toks]
  have h1 : nextEof (v.toks ++ rest) = .ok false (v.toks ++ rest) := by
    rw [e]
    cases hx : attrToks v.attrs <;> rfl
  have h2 : nextExactPunct '=' (v.toks ++ rest) = .ok false (v.toks ++ rest) := by
    rw [e]
    cases hx : v.attrs with
    | nil => rfl
    | cons a as => cases a <;> rfl
  conv => lhs; unfold variantsLoop
  rw [M.bind_ok h1]
  simp only [Bool.false_eq_true, if_false]
  rw [M.bind_ok h2]
  simp only [Bool.false_eq_true, if_false]
  rw [e, M.bind_ok (ha _ (by intro c; simp))]
  rw [M.bind_ok (show (nextIdent >>= expect) (.ident v.name :: (v.shape.toks ++ rest)) = .ok v.name (v.shape.toks ++ rest) from rfl)]
  rfl

/-- Iterations of the loop a variant takes. -/
def vcost (v : RVariant) : Nat :=
  match v.shape with
  | .disc _ => 2
  | _ => 1

theorem exact_comma {r : List TT} (h : r.head? ≠ some (.punct ',')) : nextExactPunct ',' r = .ok false r := by
  cases r with
  | nil => rfl
  | cons t r =>
    cases t with
    | punct c =>
      have : c ≠ ',' := fun e => h (by simp [e])
      simp [nextExactPunct, this]
    | _ => rfl

theorem variants_reads {k : Nat} {ty : DM (Option PType)} {vs : List RVariant}
    (ha : ∀ v ∈ vs, ReadsAttrs k v.attrs) (ht : ∀ v ∈ vs, ReadsShape ty v.shape) {m : Nat}
    (hm : 2 * vs.length < m) (trail : Bool) :
    variantsLoop k ty m [] (listToks (vs.map RVariant.toks) trail) = .ok (vs.map pvariant) [] := by
  have := list_loop (loop := variantsLoop k ty) (fun m acc => rfl) (items := vs) (tk := RVariant.toks) (p := pvariant)
    (c := vcost) (fun v _ => by unfold vcost; split <;> decide)
    (fun v hv r => by
      have e : v.toks ++ r = attrToks v.attrs ++ (.ident v.name :: (v.shape.toks ++ r)) := by simp [RVariant.toks]
      rw [e]
      cases hx : v.attrs with
      | nil => simp [attrToks]
      | cons a as => cases a <;> simp [attrToks, RAttr.toks])
    (fun v hv m acc hm => by
      have hs := ht v hv
      have st := fun m => variant_start (v := v) [] m ty acc (ha v hv)
      simp only [List.append_nil] at st
      have hv' : ∀ s, v.shape = s → pvariant v = .mk (words v.attrs) (some v.name) (pshape s) := by
        intro s e; rw [← e]; rfl
      cases hsh : v.shape with
      | unit =>
        rw [show vcost v = 1 by simp [vcost, hsh], st, hsh]
        rw [hsh] at hs
        show (ty >>= _) [] = _
        rw [M.bind_ok (hs.last rfl), hv' _ hsh]
        rfl
      | disc t =>
        obtain ⟨j, rfl⟩ : ∃ j, m = j + 1 := ⟨m - 1, by omega⟩
        rw [show j + 1 + vcost v = (j + 1 + 1) + 1 by simp [vcost, hsh], st, hsh]
        rw [hsh] at hs
        show (ty >>= _) [.punct '=', t] = _
        rw [M.bind_ok (hs.disc t [] rfl), hv' _ hsh]
        rfl
      | tuple ts =>
        rw [show vcost v = 1 by simp [vcost, hsh], st, hsh]
        rw [hsh] at hs
        have := hs.body (by simp) (by simp) [] trivial
        rw [List.append_nil] at this
        rw [M.bind_ok this, hv' _ hsh]
        rfl
      | named fs tr =>
        rw [show vcost v = 1 by simp [vcost, hsh], st, hsh]
        rw [hsh] at hs
        have := hs.body (by simp) (by simp) [] trivial
        rw [List.append_nil] at this
        rw [M.bind_ok this, hv' _ hsh]
        rfl)
    (fun v hv m acc r hm hr => by
      have hs := ht v hv
      have st := fun m => variant_start (v := v) (.punct ',' :: r) m ty acc (ha v hv)
      have hv' : ∀ s, v.shape = s → pvariant v = .mk (words v.attrs) (some v.name) (pshape s) := by
        intro s e; rw [← e]; rfl
      cases hsh : v.shape with
      | unit =>
        rw [show vcost v = 1 by simp [vcost, hsh], st, hsh]
        rw [hsh] at hs
        show (ty >>= _) (.punct ',' :: r) = _
        rw [M.bind_ok (hs.sep r), hv' _ hsh]
        simp only
        rw [M.bind_ok (exact_comma hr)]
        rfl
      | disc t =>
        obtain ⟨j, rfl⟩ : ∃ j, m = j + 1 := ⟨m - 1, by omega⟩
        rw [show j + 1 + vcost v = (j + 1 + 1) + 1 by simp [vcost, hsh], st, hsh]
        rw [hsh] at hs
        show (ty >>= _) (.punct '=' :: t :: .punct ',' :: r) = _
        rw [M.bind_ok (hs.disc t _ rfl), hv' _ hsh]
        rfl
      | tuple ts =>
        rw [show vcost v = 1 by simp [vcost, hsh], st, hsh]
        rw [hsh] at hs
        rw [M.bind_ok (hs.body (by simp) (by simp) _ (follow_comma r)), hv' _ hsh]
        rfl
      | named fs tr =>
        rw [show vcost v = 1 by simp [vcost, hsh], st, hsh]
        rw [hsh] at hs
        rw [M.bind_ok (hs.body (by simp) (by simp) _ (follow_comma r)), hv' _ hsh]
        rfl)
    (m := m) [] trail hm
  simpa using this

end NS.Derive
