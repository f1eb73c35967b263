import Verif.Lemmas.DeriveText

/-! Reading attributes, fields and variants. -/

namespace NS.Derive
open NS

theorem nextLiteral_tok {v : RLit} {n : Txt} (h : (ROpt.val n v).WF) (rest : List TT) :
    nextLiteral (v.tok :: rest) = .ok (some v.value) rest := by
  cases v with
  | str s =>
    simp only [RLit.tok, RLit.value, nextLiteral, List.cons_append]
    simp
  | other s =>
    simp only [RLit.tok, RLit.value, nextLiteral]
    cases s with
    | nil => rfl
    | cons c s =>
      have : c ≠ '"' := by
        simpa [ROpt.WF] using h
      simp [this]

/-- The comma-separated rest of a list. -/
def more (os : List ROpt) : List TT := os.flatMap fun o => .punct ',' :: o.toks

theorem nextEof_cons (t : TT) (ts : List TT) : nextEof (t :: ts) = .ok false (t :: ts) := rfl
theorem nextEof_nil : nextEof [] = .ok true [] := rfl
theorem nextPunct_cons (c : Char) (ts : List TT) : nextPunct (.punct c :: ts) = .ok (some c) ts := rfl
theorem nextPunct_nil : nextPunct [] = .ok none [] := rfl

theorem attrLoop_reads {os : List ROpt} {o : ROpt} (h : ∀ x ∈ o :: os, x.WF) {m : Nat} (acc : List Attr)
    (hm : os.length < m) :
    attrLoop m acc [] (o.toks ++ more os) = .ok (acc ++ (o :: os).map ROpt.words) [] := by
  induction os generalizing m acc o with
  | nil =>
    obtain ⟨k, rfl⟩ : ∃ k, m = k + 1 := ⟨m - 1, by simp at hm; omega⟩
    cases o with
    | flag n => rfl
    | val n v =>
      have hl := nextLiteral_tok (h (.val n v) (by simp)) []
      unfold attrLoop
      simp only [ROpt.toks, more, List.flatMap_nil, List.append_nil]
      rw [M.bind_ok (show (nextIdent >>= expect) [.ident n, .punct '=', v.tok] = .ok n [.punct '=', v.tok] from rfl)]
      simp only [List.nil_append]
      rw [M.bind_ok (nextEof_cons _ _), M.bind_ok (nextPunct_cons _ _)]
      simp only [Bool.false_eq_true, if_false, Option.some.injEq, Char.reduceEq]
      rw [M.bind_ok (show (nextLiteral >>= expect) [v.tok] = .ok v.value [] by rw [M.bind_ok hl]; rfl)]
      rw [M.bind_ok nextEof_nil, M.bind_ok nextPunct_nil]
      rfl
  | cons p os ih =>
    obtain ⟨k, rfl⟩ : ∃ k, m = k + 1 := ⟨m - 1, by simp at hm; omega⟩
    have hm' : os.length < k := by simp at hm; omega
    have ih' := ih (o := p) (fun x hx => h x (List.mem_cons_of_mem _ hx)) (m := k) (acc ++ [o.words]) hm'
    have e : more (p :: os) = .punct ',' :: (p.toks ++ more os) := by simp [more]
    rw [e]
    unfold attrLoop
    cases o with
    | flag n =>
      simp only [ROpt.toks, List.cons_append, List.nil_append]
      rw [M.bind_ok (show (nextIdent >>= expect) _ = .ok n (.punct ',' :: (p.toks ++ more os)) from rfl)]
      rw [M.bind_ok (nextEof_cons _ _), M.bind_ok (nextPunct_cons _ _)]
      simp only [Bool.false_eq_true, if_false, if_true]
      rw [show [n] = (ROpt.flag n).words from rfl, ih']
      simp
    | val n v =>
      have hl := nextLiteral_tok (h (.val n v) (by simp)) (.punct ',' :: (p.toks ++ more os))
      simp only [ROpt.toks, List.cons_append, List.nil_append]
      rw [M.bind_ok (show (nextIdent >>= expect) _ = .ok n (.punct '=' :: v.tok :: .punct ',' :: (p.toks ++ more os)) from rfl)]
      rw [M.bind_ok (nextEof_cons _ _), M.bind_ok (nextPunct_cons _ _)]
      simp only [Bool.false_eq_true, if_false, Option.some.injEq, Char.reduceEq]
      rw [M.bind_ok (show (nextLiteral >>= expect) _ = .ok v.value (.punct ',' :: (p.toks ++ more os)) by
        rw [M.bind_ok hl]; rfl)]
      rw [M.bind_ok (nextEof_cons _ _), M.bind_ok (nextPunct_cons _ _)]
      simp only [Bool.false_eq_true, if_false, if_true]
      rw [show [n, v.value] = (ROpt.val n v).words from rfl, ih']
      simp

theorem sepOpts (o : ROpt) (os : List ROpt) : sepBy comma ((o :: os).map ROpt.toks) = o.toks ++ more os := by
  rw [List.map_cons, sepBy_flatMap, List.flatMap_map]; rfl

/-- The rest does not start with punctuation. -/
def NoPunct (ts : List TT) : Prop := ∀ c, ts.head? ≠ some (.punct c)

theorem nextAttribute_stop {n : Nat} {ts : List TT} (h : NoPunct ts) : nextAttribute n ts = .ok none ts := by
  cases ts with
  | nil => rfl
  | cons t ts =>
    cases t with
    | punct c => exact absurd rfl (h c)
    | _ => rfl

/-- The options the parser returns for one attribute. -/
def attrRes : RAttr → Option (List Attr)
  | .nserde _ opts => some (opts.map ROpt.words)
  | .other _ _ => none

theorem nextAttribute_reads {a : RAttr} (h : a.WF) {n : Nat} (hn : a.opts.length < n) (rest : List TT) :
    nextAttribute n (a.toks ++ rest) = .ok (some (attrRes a)) rest := by
  cases a with
  | other name ts =>
    unfold nextAttribute
    simp only [RAttr.toks, List.cons_append, List.nil_append]
    rw [M.bind_ok (nextPunct_cons _ _)]
    simp only [if_true]
    rw [M.bind_ok (show (nextGroup >>= expect) _ = .ok (Delim.bracket, .ident name :: ts) rest from rfl)]
    refine onStream_ok (rest := ts) ?_
    rw [M.bind_ok (show (nextIdent >>= expect) _ = .ok name ts from rfl), if_neg h]
    rfl
  | nserde d opts =>
    obtain ⟨o, os, rfl⟩ : ∃ o os, opts = o :: os := by
      cases opts with
      | nil => exact absurd rfl h.1
      | cons o os => exact ⟨o, os, rfl⟩
    unfold nextAttribute
    simp only [RAttr.toks, List.cons_append, List.nil_append]
    rw [M.bind_ok (nextPunct_cons _ _)]
    simp only [if_true]
    rw [M.bind_ok (show (nextGroup >>= expect) _ = .ok (Delim.bracket, [.ident "nserde".toList,
      .group d (sepBy comma ((o :: os).map ROpt.toks))]) rest from rfl)]
    refine onStream_ok (rest := []) ?_
    rw [M.bind_ok (show (nextIdent >>= expect) _ = .ok "nserde".toList
      [.group d (sepBy comma ((o :: os).map ROpt.toks))] from rfl), if_pos rfl,
      M.bind_ok (show (nextGroup >>= expect) _ = .ok (d, sepBy comma ((o :: os).map ROpt.toks)) [] from rfl)]
    rw [M.bind_ok (onStream_ok (show attrLoop n [] [] (sepBy comma ((o :: os).map ROpt.toks)) = .ok _ [] by
      rw [sepOpts]; exact attrLoop_reads h.2 [] (by simp [RAttr.opts] at hn; omega)))]
    rfl

theorem attributesLoop_reads {as : List RAttr} (h : ∀ a ∈ as, a.WF) {k m : Nat} (hk : ∀ a ∈ as, a.opts.length < k)
    (hm : as.length < m) (acc : List Attr) {rest : List TT} (hr : NoPunct rest) :
    attributesLoop k m acc (attrToks as ++ rest) = .ok (acc ++ words as) rest := by
  induction as generalizing m acc with
  | nil =>
    obtain ⟨j, rfl⟩ : ∃ j, m = j + 1 := ⟨m - 1, by simp at hm; omega⟩
    unfold attributesLoop
    rw [M.bind_ok (show nextAttribute k (attrToks [] ++ rest) = .ok none rest from nextAttribute_stop hr)]
    simp [words, optsOf]
  | cons a as ih =>
    obtain ⟨j, rfl⟩ : ∃ j, m = j + 1 := ⟨m - 1, by simp at hm; omega⟩
    unfold attributesLoop
    have e : attrToks (a :: as) ++ rest = a.toks ++ (attrToks as ++ rest) := by simp [attrToks]
    rw [e, M.bind_ok (nextAttribute_reads (h a (by simp)) (hk a (by simp)) _)]
    have ih' := fun acc => ih (m := j) (fun a ha => h a (by simp [ha])) (fun a ha => hk a (by simp [ha])) (by simp at hm; omega) acc
    cases a with
    | nserde d opts =>
      simp only [attrRes]
      rw [ih']
      simp [words, optsOf, RAttr.opts]
    | other nm ts =>
      simp only [attrRes]
      rw [ih']
      simp [words, optsOf, RAttr.opts]

/-- Attributes are read, when the fuel is at least `k`. -/
def ReadsAttrs (k : Nat) (as : List RAttr) : Prop :=
  ∀ rest, NoPunct rest → nextAttributesList k (attrToks as ++ rest) = .ok (words as) rest

theorem readsAttrs_ev {as : List RAttr} (h : ∀ a ∈ as, a.WF) : Ev fun k => ReadsAttrs k as := by
  have h1 : Ev fun k => ∀ a ∈ as, a.opts.length < k := Ev.list as fun a _ => Ev.gt _
  refine (h1.and (Ev.gt as.length)).mono fun k hk rest hr => ?_
  have := attributesLoop_reads h hk.1 hk.2 [] hr
  simpa [nextAttributesList] using this

/-! ### Loops over comma-separated items -/

theorem list_loop {α β : Type} {loop : Nat → List β → DM (List β)} (h0 : ∀ m acc, loop (m + 1) acc [] = .ok acc [])
    {items : List α} {tk : α → List TT} {p : α → β} {c : α → Nat} (hc : ∀ x ∈ items, c x ≤ 2)
    (hne : ∀ x ∈ items, ∀ r, (tk x ++ r).head? ≠ some (.punct ','))
    (h1 : ∀ x ∈ items, ∀ m acc, 0 < m → loop (m + c x) acc (tk x) = loop m (acc ++ [p x]) [])
    (h2 : ∀ x ∈ items, ∀ m acc r, 0 < m → r.head? ≠ some (.punct ',') →
      loop (m + c x) acc (tk x ++ .punct ',' :: r) = loop m (acc ++ [p x]) r)
    {m : Nat} (acc : List β) (trail : Bool) (hm : 2 * items.length < m) :
    loop m acc (listToks (items.map tk) trail) = .ok (acc ++ items.map p) [] := by
  induction items generalizing m acc with
  | nil =>
    obtain ⟨j, rfl⟩ : ∃ j, m = j + 1 := ⟨m - 1, by simp at hm; omega⟩
    simp [listToks, sepBy, h0]
  | cons x xs ih =>
    have hcx := hc x (by simp)
    obtain ⟨j, rfl⟩ : ∃ j, m = j + c x := ⟨m - c x, by simp at hm; omega⟩
    have hj : 2 * xs.length < j := by simp at hm; omega
    have ih' := ih (fun x hx => hc x (by simp [hx])) (fun x hx => hne x (by simp [hx])) (fun x hx => h1 x (by simp [hx]))
      (fun x hx => h2 x (by simp [hx])) (m := j) (acc ++ [p x]) hj
    cases xs with
    | nil =>
      obtain ⟨i, rfl⟩ : ∃ i, j = i + 1 := ⟨j - 1, by omega⟩
      cases trail with
      | false =>
        simp only [listToks, List.map_cons, List.map_nil, sepBy, Bool.false_and, Bool.false_eq_true, if_false, List.append_nil]
        rw [h1 x (by simp) _ _ (by omega), h0]
      | true =>
        simp only [listToks, List.map_cons, List.map_nil, sepBy, List.isEmpty_cons, Bool.not_false, Bool.and_true, if_true]
        rw [show tk x ++ comma = tk x ++ .punct ',' :: [] from rfl, h2 x (by simp) _ _ _ (by omega) (by simp), h0]
    | cons y ys =>
      have e : listToks ((x :: y :: ys).map tk) trail = tk x ++ .punct ',' :: listToks ((y :: ys).map tk) trail := by
        simp [listToks, sepBy, comma]
      have hh : (listToks ((y :: ys).map tk) trail).head? ≠ some (.punct ',') := by
        rw [listToks, List.map_cons, sepBy_flatMap, List.append_assoc]
        exact hne y (by simp) _
      rw [e, h2 x (by simp) _ _ _ (by omega) hh, ih']
      simp

/-! ### Fields -/

/-- The tree of a named field. -/
def pfield (f : RField) : PField := .mk (words f.attrs) (some f.name) (ptype f.ty)
/-- The tree of a tuple field. -/
def ptfield (f : RTField) : PField := .mk (words f.attrs) none (ptype f.ty)

theorem fieldRead {f : RField} (h : f.WF) : FieldRead f (pfield f) := ⟨rfl, rfl, typeRead h.2.2⟩
theorem tfieldRead {f : RTField} (h : f.WF) : TFieldRead f (ptfield f) := ⟨rfl, rfl, typeRead h.2.1⟩

theorem vis_named {f : RField} (h : f.WF) (rest : List TT) :
    nextVisibility (f.vis.toks ++ .ident f.name :: rest) = .ok () (.ident f.name :: rest) := by
  cases hv : f.vis with
  | priv => simp only [RVis.toks, List.nil_append, nextVisibility, if_neg h.2.1]
  | pub => rfl
  | restricted ts => rfl

theorem noPunct_vis_named (f : RField) (rest : List TT) : NoPunct (f.vis.toks ++ .ident f.name :: rest) := by
  intro c
  cases f.vis <;> simp [RVis.toks]

theorem nextFields_step {k : Nat} {ty : DM (Option PType)} {f : RField} (h : f.WF) (ha : ReadsAttrs k f.attrs)
    (ht : Reads ty f.ty) {m : Nat} {acc : List PField} {rest rest' : List TT} {q} (hr : Follow rest) (hnp : NoPlus rest)
    (hp : nextPunct rest = .ok q rest') :
    nextFields k ty true (m + 1) acc (f.toks ++ rest) = nextFields k ty true m (acc ++ [pfield f]) rest' := by
  have e : f.toks ++ rest = attrToks f.attrs ++ (f.vis.toks ++ .ident f.name :: (.punct ':' :: (f.ty.toks ++ rest))) := by
    simp [RField.toks]
  have hne : nextEof (f.toks ++ rest) = .ok false (f.toks ++ rest) := by
    have : f.toks ++ rest ≠ [] := by rw [e]; simp
    cases hx : f.toks ++ rest with
    | nil => exact absurd hx this
    | cons x xs => rfl
  conv => lhs; unfold nextFields
  rw [M.bind_ok hne]
  simp only [Bool.false_eq_true, if_false]
  rw [e, M.bind_ok (ha _ (noPunct_vis_named f _)), M.bind_ok (vis_named h _)]
  simp only [if_true]
  rw [M.bind_ok (show (do
      let i ← nextIdent >>= expect
      let c ← nextExactPunct ':'
      assert c
      pure (some i) : DM (Option Txt)) (.ident f.name :: .punct ':' :: (f.ty.toks ++ rest)) =
      .ok (some f.name) (f.ty.toks ++ rest) from rfl), M.bind_ok (reads_expect ht hr fun _ => hnp), M.bind_ok hp]
  rfl

theorem nextFields_named {k : Nat} {ty : DM (Option PType)} {fs : List RField} (h : ∀ f ∈ fs, f.WF)
    (ha : ∀ f ∈ fs, ReadsAttrs k f.attrs) (ht : ∀ f ∈ fs, Reads ty f.ty) {m : Nat} (hm : 2 * fs.length < m) (trail : Bool) :
    nextFields k ty true m [] (listToks (fs.map RField.toks) trail) = .ok (fs.map pfield) [] := by
  have := list_loop (loop := nextFields k ty true) (fun m acc => rfl) (items := fs) (tk := RField.toks) (p := pfield)
    (c := fun _ => 1) (fun _ _ => by decide)
    (fun f hf r => by
      have e : f.toks ++ r = attrToks f.attrs ++ (f.vis.toks ++ .ident f.name :: (.punct ':' :: (f.ty.toks ++ r))) := by
        simp [RField.toks]
      rw [e]
      cases hx : f.attrs with
      | nil =>
        have := noPunct_vis_named f (.punct ':' :: (f.ty.toks ++ r)) ','
        simpa [attrToks] using this
      | cons a as => cases a <;> simp [attrToks, RAttr.toks])
    (fun f hf m acc _ => by
      have := nextFields_step (h f hf) (ha f hf) (ht f hf) (m := m) (acc := acc) (rest := []) (by simp [Follow]) rfl nextPunct_nil
      simpa using this)
    (fun f hf m acc r _ _ => nextFields_step (h f hf) (ha f hf) (ht f hf) (follow_comma r) rfl (nextPunct_cons _ _))
    (m := m) [] trail hm
  simpa using this

/-- The start of a tuple field, after its attributes. -/
theorem vis_tuple {f : RTField} (h : f.WF) (rest : List TT) :
    NoPunct (f.vis.toks ++ (f.ty.toks ++ rest)) ∧
    nextVisibility (f.vis.toks ++ (f.ty.toks ++ rest)) = .ok () (f.ty.toks ++ rest) := by
  have hne : f.ty.toks ≠ [] := by
    have hw := h.2.1
    cases hty : f.ty with
    | path glob segs args =>
      rw [hty] at hw
      obtain ⟨s, r, rfl⟩ : ∃ s r, segs = s :: r := by
        cases segs with
        | nil => exact absurd hw.1 id
        | cons s r => exact ⟨s, r, rfl⟩
      cases args <;> simp [RTy.toks, segToks_cons]
    | ref l t => cases l <;> simp [RTy.toks]
    | _ => simp [RTy.toks]
  have h3 := h.2.2
  cases hv : f.vis with
  | priv =>
    rw [hv] at h3
    cases ht : f.ty.toks with
    | nil => exact absurd ht hne
    | cons x xs =>
      rw [ht] at h3
      cases x with
      | punct c => exact absurd h3 id
      | ident s =>
        have h3 : s ≠ "pub".toList := h3
        refine ⟨fun c => by simp [RVis.toks], ?_⟩
        simp only [RVis.toks, List.nil_append, List.cons_append, nextVisibility, if_neg h3]
      | lit s => exact ⟨fun c => by simp [RVis.toks], rfl⟩
      | group d g => exact ⟨fun c => by simp [RVis.toks], rfl⟩
  | pub =>
    rw [hv] at h3
    refine ⟨fun c => by simp [RVis.toks], ?_⟩
    cases ht : f.ty.toks with
    | nil => exact absurd ht hne
    | cons x xs =>
      rw [ht] at h3
      cases x with
      | group d g =>
        cases d with
        | paren => exact absurd h3 id
        | _ => rfl
      | _ => rfl
  | restricted ts => exact ⟨fun c => by simp [RVis.toks], rfl⟩

theorem toks_head_comma {t : RTy} (h : t.WF) (r : List TT) : (t.toks ++ r).head? ≠ some (.punct ',') ∧ t.toks ++ r ≠ [] := by
  cases t with
  | path glob segs args =>
    obtain ⟨s, rs, rfl⟩ : ∃ s r, segs = s :: r := by
      cases segs with
      | nil => exact absurd h.1 id
      | cons s r => exact ⟨s, r, rfl⟩
    cases glob <;> cases args <;> simp [RTy.toks, segToks_cons, colons]
  | assoc glob segs name t =>
    obtain ⟨s, rs, rfl⟩ : ∃ s r, segs = s :: r := by
      cases segs with
      | nil => exact absurd h.1 id
      | cons s r => exact ⟨s, r, rfl⟩
    cases glob <;> simp [RTy.toks, segToks_cons, colons]
  | ref l t => cases l <;> simp [RTy.toks]
  | _ => simp [RTy.toks]

theorem nextFields_tstep {k : Nat} {ty : DM (Option PType)} {f : RTField} (h : f.WF) (ha : ReadsAttrs k f.attrs)
    (ht : Reads ty f.ty) {m : Nat} {acc : List PField} {rest rest' : List TT} {q} (hr : Follow rest) (hnp : NoPlus rest)
    (hp : nextPunct rest = .ok q rest') :
    nextFields k ty false (m + 1) acc (f.toks ++ rest) = nextFields k ty false m (acc ++ [ptfield f]) rest' := by
  have e : f.toks ++ rest = attrToks f.attrs ++ (f.vis.toks ++ (f.ty.toks ++ rest)) := by
    simp [RTField.toks]
  have hne : nextEof (f.toks ++ rest) = .ok false (f.toks ++ rest) := by
    have : f.toks ++ rest ≠ [] := by
      rw [e]
      have := (toks_head_comma h.2.1 rest).2
      intro hx
      rw [List.append_eq_nil_iff, List.append_eq_nil_iff] at hx
      exact this hx.2.2
    cases hx : f.toks ++ rest with
    | nil => exact absurd hx this
    | cons x xs => rfl
  conv => lhs; unfold nextFields
  rw [M.bind_ok hne]
  simp only [Bool.false_eq_true, if_false]
  rw [e, M.bind_ok (ha _ (vis_tuple h rest).1), M.bind_ok (vis_tuple h rest).2]
  rw [M.bind_ok (show (pure none : DM (Option Txt)) (f.ty.toks ++ rest) = .ok none (f.ty.toks ++ rest) from rfl), M.bind_ok (reads_expect ht hr fun _ => hnp), M.bind_ok hp]
  rfl

theorem nextFields_tuple {k : Nat} {ty : DM (Option PType)} {fs : List RTField} (h : ∀ f ∈ fs, f.WF)
    (ha : ∀ f ∈ fs, ReadsAttrs k f.attrs) (ht : ∀ f ∈ fs, Reads ty f.ty) {m : Nat} (hm : 2 * fs.length < m) (trail : Bool) :
    nextFields k ty false m [] (listToks (fs.map RTField.toks) trail) = .ok (fs.map ptfield) [] := by
  have := list_loop (loop := nextFields k ty false) (fun m acc => rfl) (items := fs) (tk := RTField.toks) (p := ptfield)
    (c := fun _ => 1) (fun _ _ => by decide)
    (fun f hf r => by
      have e : f.toks ++ r = attrToks f.attrs ++ (f.vis.toks ++ (f.ty.toks ++ r)) := by simp [RTField.toks]
      rw [e]
      cases hx : f.attrs with
      | nil =>
        have := (vis_tuple (h f hf) r).1 ','
        simpa [attrToks] using this
      | cons a as => cases a <;> simp [attrToks, RAttr.toks])
    (fun f hf m acc _ => by
      have := nextFields_tstep (h f hf) (ha f hf) (ht f hf) (m := m) (acc := acc) (rest := []) (by simp [Follow]) rfl nextPunct_nil
      simpa using this)
    (fun f hf m acc r _ _ => nextFields_tstep (h f hf) (ha f hf) (ht f hf) (follow_comma r) rfl (nextPunct_cons _ _))
    (m := m) [] trail hm
  simpa using this

theorem matching_map {α β : Type} {R : α → β → Prop} {f : α → β} {l : List α} (h : ∀ x ∈ l, R x (f x)) :
    Matching R l (l.map f) := by
  induction l with
  | nil => exact .nil
  | cons x l ih => exact .cons (h x (by simp)) (ih fun y hy => h y (by simp [hy]))

end NS.Derive
