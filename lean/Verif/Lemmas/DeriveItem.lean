import Verif.Lemmas.DeriveGenerics

/-!
# Reading whole declarations
-/

namespace NS.Derive

/-- The fields of a body. -/
def pbody : RBody → List PField
  | .unit => []
  | .tuple fs _ => fs.map ptfield
  | .named fs _ => fs.map pfield

/-- Is it a body with braces? -/
def RBody.braces : RBody → Bool
  | .named _ _ => true
  | _ => false

/-- The tree of a struct. -/
def pstruct (s : RStruct) : PStruct :=
  .mk (some s.name) s.body.braces (pbody s.body) (words s.attrs) (pgenerics s.generics)

/-- The tree of an enum. -/
def penum (e : REnum) : PEnum :=
  { name := e.name, variants := e.variants.map pvariant, attributes := [], generics := pgenerics e.generics }

/-- The fields of a body can be read. -/
def ReadsBody (k : Nat) (ty : DM (Option PType)) : RBody → Prop
  | .unit => True
  | .tuple fs _ => (∀ f ∈ fs, ReadsAttrs k f.attrs) ∧ (∀ f ∈ fs, Reads ty f.ty) ∧ 2 * fs.length < k
  | .named fs _ => (∀ f ∈ fs, ReadsAttrs k f.attrs) ∧ (∀ f ∈ fs, Reads ty f.ty) ∧ 2 * fs.length < k

theorem readsBody_ev {b : RBody} (h : b.WF) : Ev fun n => ReadsBody n (nextType n) b := by
  cases b with
  | unit => exact ⟨0, fun _ _ => trivial⟩
  | tuple fs tr =>
    have h1 : Ev fun n => ∀ f ∈ fs, ReadsAttrs n f.attrs := Ev.list fs fun f hf => readsAttrs_ev (h f hf).1
    have h2 : Ev fun n => ∀ f ∈ fs, Reads (nextType n) f.ty := Ev.list fs fun f hf => reads_ev (h f hf).2.1
    exact ((h1.and h2).and (Ev.gt _)).mono fun n h => ⟨h.1.1, h.1.2, h.2⟩
  | named fs tr =>
    have h1 : Ev fun n => ∀ f ∈ fs, ReadsAttrs n f.attrs := Ev.list fs fun f hf => readsAttrs_ev (h f hf).1
    have h2 : Ev fun n => ∀ f ∈ fs, Reads (nextType n) f.ty := Ev.list fs fun f hf => reads_ev (h f hf).2.2
    exact ((h1.and h2).and (Ev.gt _)).mono fun n h => ⟨h.1.1, h.1.2, h.2⟩

theorem nextStruct_reads {n : Nat} {ty : DM (Option PType)} {s : RStruct} (h : s.WF)
    (hg : ReadsGenerics n ty s.generics) (hb : ReadsBody n ty s.body) :
    nextStruct n ty (.ident s.name :: (s.generics.toks ++ s.body.toks)) =
      .ok (.mk (some s.name) s.body.braces (pbody s.body) [] (pgenerics s.generics)) [] := by
  obtain ⟨_, hgw, hbw, hx⟩ := h
  unfold nextStruct
  rw [M.bind_ok (show nextIdent _ = .ok (some s.name) (s.generics.toks ++ s.body.toks) from rfl)]
  cases hbody : s.body with
  | unit =>
    rw [hbody] at hx
    have hx : s.generics.wtrail = false := hx
    rw [M.bind_ok (getAllBounds_reads hgw hg (rest := RBody.toks .unit) (by
      split
      · exact ⟨after_semi _, fun r => by simp [RBody.toks]⟩
      · exact ⟨rfl, hx⟩))]
    rfl
  | tuple fs tr =>
    rw [hbody] at hx hb hbw
    have hx : s.generics.wheres = [] := hx
    rw [M.bind_ok (getAllBounds_reads hgw hg (rest := RBody.toks (.tuple fs tr)) (by
      rw [if_pos hx]
      exact ⟨trivial, fun r => by simp [RBody.toks]⟩))]
    rw [M.bind_ok (show nextGroup (RBody.toks (.tuple fs tr)) =
      .ok (some (.paren, listToks (fs.map RTField.toks) tr)) [.punct ';'] from rfl)]
    simp only
    rw [M.bind_ok (onStream_ok (nextFields_tuple hbw hb.1 hb.2.1 hb.2.2 tr))]
    rfl
  | named fs tr =>
    rw [hbody] at hb hbw
    rw [M.bind_ok (getAllBounds_reads hgw hg (rest := RBody.toks (.named fs tr)) (by
      split
      · exact ⟨trivial, fun r => by simp [RBody.toks]⟩
      · trivial))]
    rw [M.bind_ok (show nextGroup (RBody.toks (.named fs tr)) =
      .ok (some (.brace, listToks (fs.map RField.toks) tr)) [] from rfl)]
    simp only
    rw [M.bind_ok (onStream_ok (nextFields_named hbw hb.1 hb.2.1 hb.2.2 tr))]
    rfl

theorem nextEnum_reads {n : Nat} {ty : DM (Option PType)} {e : REnum} (h : e.WF)
    (hg : ReadsGenerics n ty e.generics) (ha : ∀ v ∈ e.variants, ReadsAttrs n v.attrs)
    (ht : ∀ v ∈ e.variants, ReadsShape ty v.shape) (hn : 2 * e.variants.length < n) :
    nextEnum n ty (.ident e.name :: (e.generics.toks ++ [.group .brace (listToks (e.variants.map RVariant.toks) e.trail)])) =
      .ok (penum e) [] := by
  unfold nextEnum
  rw [M.bind_ok (show (nextIdent >>= expect) _ = .ok e.name
    (e.generics.toks ++ [.group .brace (listToks (e.variants.map RVariant.toks) e.trail)]) from rfl)]
  rw [M.bind_ok (getAllBounds_reads h.2.1 hg (by
    split
    · exact ⟨trivial, fun r => by simp⟩
    · trivial))]
  rw [M.bind_ok (show nextGroup _ = .ok (some (.brace, listToks (e.variants.map RVariant.toks) e.trail)) [] from rfl)]
  simp only
  rw [M.bind_ok (onStream_ok (variants_reads ha ht hn e.trail))]
  rfl

/-- The parser on a declaration: attributes, `pub`, the keyword, and then `body`. -/
theorem parseData_start {n : Nat} {as : List RAttr} (ha : ReadsAttrs n as) (isPub : Bool) {kw : Txt} (hkw : kw ≠ "pub".toList)
    (rest : List TT) :
    parseData n (attrToks as ++ ((if isPub then [.ident "pub".toList] else []) ++ .ident kw :: rest)) =
    (do
      let res ← (if kw = "struct".toList then do
          let s ← nextStruct n (nextType n)
          pure (.struct (s.setAttributes (words as)))
        else if kw = "enum".toList then do
          let e ← nextEnum n (nextType n)
          pure (.enum e)
        else M.panic : DM Data)
      let eof ← nextEof
      assert eof
      pure res : DM Data) rest := by
  unfold parseData
  rw [M.bind_ok (ha _ (by intro c; cases isPub <;> simp))]
  cases isPub with
  | false =>
    simp only [Bool.false_eq_true, if_false, List.nil_append]
    rw [M.bind_ok (show (nextIdent >>= expect) _ = .ok kw rest from rfl)]
    rw [M.bind_ok (show (if kw = "pub".toList then nextIdent >>= expect else pure kw : DM Txt) rest = .ok kw rest by
      rw [if_neg hkw]; rfl)]
  | true =>
    simp only [if_true, List.cons_append, List.nil_append]
    rw [M.bind_ok (show (nextIdent >>= expect) _ = .ok "pub".toList (.ident kw :: rest) from rfl)]
    rw [M.bind_ok (show (if "pub".toList = "pub".toList then nextIdent >>= expect else pure "pub".toList : DM Txt) (.ident kw :: rest) =
      .ok kw rest from rfl)]

theorem parse_struct {s : RStruct} (h : s.WF) : Parses s.toks (.struct (pstruct s)) := by
  have h1 := readsAttrs_ev h.1
  have h2 := readsGenerics_ev h.2.1
  have h3 := readsBody_ev h.2.2.1
  obtain ⟨N, hN⟩ := (h1.and h2).and h3
  refine ⟨N, fun n hn => ?_⟩
  obtain ⟨⟨h1, h2⟩, h3⟩ := hN n hn
  have e : s.toks = attrToks s.attrs ++ ((if s.isPub then [.ident "pub".toList] else []) ++
      .ident "struct".toList :: (.ident s.name :: (s.generics.toks ++ s.body.toks))) := by simp [RStruct.toks]
  rw [parseItem, e, parseData_start h1 _ (by decide), if_pos rfl]
  rw [M.bind_ok (show (do
      let s ← nextStruct n (nextType n)
      pure (Data.struct (s.setAttributes (words _))) : DM Data) _ = .ok (.struct (pstruct s)) [] by
    rw [M.bind_ok (nextStruct_reads h h2 h3)]; rfl)]
  rfl

theorem parse_enum {e : REnum} (h : e.WF) : Parses e.toks (.enum (penum e)) := by
  have h1 := readsAttrs_ev h.1
  have h2 := readsGenerics_ev h.2.1
  have h3 : Ev fun n => ∀ v ∈ e.variants, ReadsAttrs n v.attrs := Ev.list _ fun v hv => readsAttrs_ev (h.2.2 v hv).1
  have h4 : Ev fun n => ∀ v ∈ e.variants, ReadsShape (nextType n) v.shape :=
    Ev.list _ fun v hv => readsShape_ev (h.2.2 v hv).2
  obtain ⟨N, hN⟩ := ((h1.and h2).and (h3.and h4)).and (Ev.gt (2 * e.variants.length))
  refine ⟨N, fun n hn => ?_⟩
  obtain ⟨⟨⟨h1, h2⟩, h3, h4⟩, h5⟩ := hN n hn
  have eq : e.toks = attrToks e.attrs ++ ((if e.isPub then [.ident "pub".toList] else []) ++
      .ident "enum".toList :: (.ident e.name :: (e.generics.toks ++
        [.group .brace (listToks (e.variants.map RVariant.toks) e.trail)]))) := by simp [REnum.toks]
  rw [parseItem, eq, parseData_start h1 _ (by decide), if_neg (by decide), if_pos rfl]
  rw [M.bind_ok (show (do
      let s ← nextEnum n (nextType n)
      pure (Data.enum s) : DM Data) _ = .ok (.enum (penum e)) [] by
    rw [M.bind_ok (nextEnum_reads h h2 h3 h4 h5)]; rfl)]
  rfl

theorem bodyRead {s : RStruct} (h : s.WF) : BodyRead s.body (pstruct s) := by
  have hb := h.2.2.1
  unfold BodyRead
  cases hbody : s.body with
  | unit => exact ⟨by simp [pstruct, hbody, PStruct.named, RBody.braces], by simp [pstruct, hbody, PStruct.fields, pbody]⟩
  | tuple fs tr =>
    rw [hbody] at hb
    refine ⟨by simp [pstruct, hbody, PStruct.named, RBody.braces], ?_⟩
    rw [show (pstruct s).fields = fs.map ptfield by simp [pstruct, hbody, PStruct.fields, pbody]]
    exact matching_map fun f hf => tfieldRead (hb f hf)
  | named fs tr =>
    rw [hbody] at hb
    refine ⟨by simp [pstruct, hbody, PStruct.named, RBody.braces], ?_⟩
    rw [show (pstruct s).fields = fs.map pfield by simp [pstruct, hbody, PStruct.fields, pbody]]
    exact matching_map fun f hf => fieldRead (hb f hf)

end NS.Derive
