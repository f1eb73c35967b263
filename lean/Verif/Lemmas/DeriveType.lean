import Verif.Spec.DeriveDecl
import Verif.Lemmas.Monad
import Verif.Lemmas.JsonText
import Verif.Lemmas.JsonDen

/-! Reading the tokens of a type expression. -/

namespace NS.Derive

open NS

/-- What can follow a type. -/
def Follow : List TT → Prop
  | .punct a :: .punct b :: _ => ¬(a = ':' ∧ b = ':') ∧ a ≠ '<' ∧ ¬(a = '-' ∧ b = '>')
  | .punct a :: _ => a ≠ '<'
  | .ident s :: _ => s ≠ "as".toList
  | _ => True

theorem Follow.path {rest : List TT} (h : Follow rest) (m : Nat) (acc : Txt) :
    pathLoop (m + 1) acc rest = .ok acc rest := by
  rcases rest with _ | ⟨t, rest⟩
  · rfl
  · cases t with
    | punct a =>
      rcases rest with _ | ⟨u, rest⟩
      · rfl
      · cases u with
        | punct b =>
          have := h.1
          simp only [pathLoop]
          rw [if_neg this]
        | _ => rfl
    | _ => rfl

theorem Follow.lt {rest : List TT} (h : Follow rest) : nextExactPunct '<' rest = .ok false rest := by
  rcases rest with _ | ⟨t, rest⟩
  · rfl
  · cases t with
    | punct a =>
      have : a ≠ '<' := by
        rcases rest with _ | ⟨u, rest⟩
        · exact h
        · cases u <;> first | exact h.2.1 | exact h
      simp [nextExactPunct, this]
    | _ => rfl

theorem Follow.asOther {rest : List TT} (h : Follow rest) (ty) : asOtherType ty rest = .ok none rest := by
  rcases rest with _ | ⟨t, rest⟩
  · rfl
  · cases t with
    | ident s =>
      have : s ≠ "as".toList := h
      simp only [asOtherType, M.bind_def, peek, List.head?_cons, if_neg this]
      rfl
    | _ => rfl

theorem Follow.arrow {rest : List TT} (h : Follow rest) (ty) : nextReturnType ty rest = .ok none rest := by
  rcases rest with _ | ⟨t, rest⟩
  · rfl
  · cases t with
    | punct a =>
      rcases rest with _ | ⟨u, rest⟩
      · rfl
      · cases u with
        | punct b =>
          simp only [nextReturnType]
          rw [if_neg h.2.2]
        | _ => rfl
    | _ => rfl

/-- No `+` follows. -/
def NoPlus (rest : List TT) : Prop := nextExactPunct '+' rest = .ok false rest

/-- The keyword as the parser stores it. -/
def FnKw.ty : FnKw → FnType
  | .bare => .bare
  | .fn => .closure true false
  | .fnMut => .closure true true
  | .fnOnce => .closure false false

/-- A leading `::`. -/
def pref (glob : Bool) : Txt := if glob then "::".toList else []

/-- The tree the parser builds where no type starts. -/
def noneTy : PType := .mk .none none none none

mutual
/-- The tree the parser builds for a type expression. -/
def ptype : RTy → PType
  | .path glob segs args =>
    .mk (.named (pref glob ++ segText segs))
      (match args with
       | [] => none
       | a :: as => some (ptype a :: ptypes as)) none none
  | .tuple ts =>
    .mk (.tuple (match ts with | [] => [noneTy] | a :: as => ptype a :: ptypes as))
      (some (match ts with | [] => [noneTy] | a :: as => ptype a :: ptypes as)) none none
  | .arr t n => .mk (.array (ptype t) (some (.value n))) (some [ptype t]) none none
  | .arrConst t segs =>
    .mk (.array (ptype t) (some (.named (.mk (.named (segText segs)) none none none))))
      (some [ptype t]) none none
  | .slice t => .mk (.array (ptype t) none) (some [ptype t]) none none
  | .ref l t => (ptype t).setRef (some l)
  | .lifetime l => .mk (.lifetime l) none none none
  | .never => .mk .never none none none
  | .proj self tr name =>
    .mk (.associated (.mk (.named (segText self)) none none (some (ptype tr))) (ptype tr)
      (.mk (.named name) none none none)) none none none
  | .fnTy k args =>
    .mk (.fn k.ty (some (match args with | [] => noneTy | a :: _ => ptype a)) none)
      (if k ≠ .bare ∨ (match args with | [] => noneTy | a :: _ => ptype a).wraps.isSome then
        some (fnWraps (some (match args with | [] => noneTy | a :: _ => ptype a)) none) else none) none none
  | .fnRet k args r =>
    .mk (.fn k.ty (some (match args with | [] => noneTy | a :: _ => ptype a)) (some (ptype r)))
      (some (fnWraps (some (match args with | [] => noneTy | a :: _ => ptype a)) (some (ptype r)))) none none
  | .obj dyn b bs => .mk (.object dyn (ptype b :: ptypes bs)) (ptype b).wraps none none
  | .assoc glob segs name t =>
    .mk (.associatedBound (pref glob ++ segText segs) (ptype t)) (some [.mk (.named name) none none none])
      none none
/-- Each. -/
def ptypes : List RTy → List PType
  | [] => []
  | t :: ts => ptype t :: ptypes ts
end

theorem ptypes_eq (ts : List RTy) : ptypes ts = ts.map ptype := by
  induction ts with
  | nil => rfl
  | cons t ts ih => simp [ptypes, ih]

theorem toksList_eq (ts : List RTy) : toksList ts = ts.map RTy.toks := by
  induction ts with
  | nil => rfl
  | cons t ts ih => simp [toksList, ih]

theorem textList_eq (ts : List RTy) : textList ts = ts.map RTy.text := by
  induction ts with
  | nil => rfl
  | cons t ts ih => simp [textList, ih]

theorem fullList_eq (ts : List PType) : fullList ts = ts.map PType.full := by
  induction ts with
  | nil => rfl
  | cons t ts ih => simp [fullList, ih]

theorem WFList_iff (ts : List RTy) : WFList ts ↔ ∀ t ∈ ts, t.WF := by
  induction ts with
  | nil => simp [WFList]
  | cons t ts ih => simp [WFList, ih]

/-- `ty` reads the type expression `t`. -/
def Reads (ty : DM (Option PType)) (t : RTy) : Prop :=
  ∀ rest, Follow rest → (t.endsObj = true → NoPlus rest) → ty (t.toks ++ rest) = .ok (some (ptype t)) rest

/-- `::a::b`. -/
def moreSegs (r : List Txt) : List TT := r.flatMap fun s => [.punct ':', .punct ':', .ident s]
/-- `::a::b`. -/
def moreText (r : List Txt) : Txt := r.flatMap fun s => "::".toList ++ s

theorem segToks_cons (s : Txt) (r : List Txt) : segToks (s :: r) = .ident s :: moreSegs r := by
  induction r generalizing s with
  | nil => rfl
  | cons a r ih =>
    have := ih a
    simp only [segToks, List.map_cons, sepBy, moreSegs, List.flatMap_cons] at this ⊢
    rw [this]; rfl

theorem segText_cons (s : Txt) (r : List Txt) : segText (s :: r) = s ++ moreText r := by
  induction r generalizing s with
  | nil => simp [segText, sepBy, moreText]
  | cons a r ih =>
    have := ih a
    simp only [segText, sepBy, moreText, List.flatMap_cons] at this ⊢
    rw [this]; simp

theorem pathLoop_segs {m : Nat} {r : List Txt} (acc : Txt) {rest : List TT} (hr : ∀ k acc, pathLoop (k + 1) acc rest = .ok acc rest)
    (hm : r.length < m) : pathLoop m acc (moreSegs r ++ rest) = .ok (acc ++ moreText r) rest := by
  induction r generalizing m acc with
  | nil =>
    obtain ⟨k, rfl⟩ : ∃ k, m = k + 1 := ⟨m - 1, by simp at hm; omega⟩
    simp [moreSegs, moreText, hr]
  | cons a r ih =>
    obtain ⟨k, rfl⟩ : ∃ k, m = k + 1 := ⟨m - 1, by simp at hm; omega⟩
    have := ih (m := k) (acc ++ "::".toList ++ a) (by simp at hm; omega)
    simp only [moreSegs, moreText, List.flatMap_cons, List.cons_append, List.nil_append] at this ⊢
    simp [pathLoop, M.bind_def, nextIdent, expect]
    simpa using this

theorem commaLoop_reads {ty : DM (Option PType)} {ts : List RTy} (h : ∀ t ∈ ts, Reads ty t) {m : Nat}
    (acc : List PType) {rest : List TT} (hr : Follow rest) (hp : NoPlus rest) (hc : nextExactPunct ',' rest = .ok false rest)
    (hm : ts.length < m) :
    commaLoop ty m acc ((ts.flatMap fun t => .punct ',' :: t.toks) ++ rest) = .ok (acc ++ ts.map ptype) rest := by
  induction ts generalizing m acc with
  | nil =>
    obtain ⟨k, rfl⟩ : ∃ k, m = k + 1 := ⟨m - 1, by simp at hm; omega⟩
    simp [commaLoop, M.bind_def, hc]
  | cons t ts ih =>
    obtain ⟨k, rfl⟩ : ∃ k, m = k + 1 := ⟨m - 1, by simp at hm; omega⟩
    have h1 := h t (by simp)
    have hf : Follow ((ts.flatMap fun t => .punct ',' :: t.toks) ++ rest) := by
      cases ts with
      | nil => simpa using hr
      | cons u us =>
        simp only [List.flatMap_cons, List.cons_append, List.append_assoc]
        generalize u.toks ++ _ = l
        cases l with
        | nil => simp [Follow]
        | cons x l => cases x <;> simp [Follow]
    have hnp : NoPlus ((ts.flatMap fun t => .punct ',' :: t.toks) ++ rest) := by
      cases ts with
      | nil => simpa using hp
      | cons u us => simp only [List.flatMap_cons, List.cons_append]; rfl
    have h2 := h1 _ hf fun _ => hnp
    have h3 := ih (fun t ht => h t (by simp [ht])) (m := k) (acc ++ [ptype t]) (by simp at hm; omega)
    simp [commaLoop, M.bind_def, nextExactPunct, h2, expect]
    simpa using h3

theorem sepBy_flatMap {α : Type} (sep : List α) (a : List α) (l : List (List α)) :
    sepBy sep (a :: l) = a ++ l.flatMap fun x => sep ++ x := by
  induction l generalizing a with
  | nil => simp [sepBy]
  | cons b l ih => simp [sepBy, ih b]

theorem sepToks (t : RTy) (ts : List RTy) :
    sepBy comma ((t :: ts).map RTy.toks) = t.toks ++ ts.flatMap fun t => .punct ',' :: t.toks := by
  rw [List.map_cons, sepBy_flatMap, List.flatMap_map]; rfl

/-- The rest does not start with `::`. -/
def NoColons (rest : List TT) : Prop := ∀ m acc, pathLoop (m + 1) acc rest = .ok acc rest

theorem Follow.noColons {rest : List TT} (h : Follow rest) : NoColons rest := fun m acc => h.path m acc

theorem noColons_punct {c : Char} (hc : c ≠ ':') (rest : List TT) : NoColons (.punct c :: rest) := by
  intro m acc
  rcases rest with _ | ⟨u, rest⟩
  · rfl
  · cases u with
    | punct b => simp [pathLoop, hc]
    | _ => rfl

theorem noColons_ident (s : Txt) (rest : List TT) : NoColons (.ident s :: rest) := by
  intro m acc; rfl

theorem pathStart {n : Nat} (glob : Bool) {segs : List Txt} (hs : segs ≠ []) {rest : List TT} (hr : NoColons rest)
    (hn : segs.length < n) :
    ∃ h x, nextIdent ((if glob then colons else []) ++ segToks segs ++ rest) = .ok h x ∧
      pathLoop n (h.getD []) x = .ok (pref glob ++ segText segs) rest := by
  obtain ⟨s, r, rfl⟩ : ∃ s r, segs = s :: r := by
    cases segs with
    | nil => exact absurd rfl hs
    | cons s r => exact ⟨s, r, rfl⟩
  cases glob with
  | false =>
    refine ⟨some s, moreSegs r ++ rest, by simp [segToks_cons, nextIdent], ?_⟩
    rw [segText_cons]
    have := pathLoop_segs (r := r) s hr (m := n) (by simp at hn; omega)
    simpa [pref] using this
  | true =>
    refine ⟨none, moreSegs (s :: r) ++ rest, by simp [segToks_cons, nextIdent, colons, moreSegs], ?_⟩
    rw [segText_cons]
    have := pathLoop_segs (r := s :: r) [] hr (m := n) (by simp at hn; simp; omega)
    simpa [pref, moreText] using this

/-- `typeCore` reads `t` under any `&`. -/
def Core (n : Nat) (ty : DM (Option PType)) (t : RTy) : Prop :=
  ∀ r rest, Follow rest → (t.endsObj = true → NoPlus rest) → typeCore n ty r (t.toks ++ rest) = .ok (some ((ptype t).setRef r)) rest

theorem segs_ne {segs : List Txt} (h : Segs segs) : segs ≠ [] := by
  cases segs <;> simp_all [Segs]

theorem segText_ne {segs : List Txt} (h : Segs segs) (glob : Bool) : (pref glob ++ segText segs).isEmpty = false := by
  obtain ⟨s, r, rfl⟩ : ∃ s r, segs = s :: r := by
    cases segs with
    | nil => exact absurd h id
    | cons s r => exact ⟨s, r, rfl⟩
  have : s ≠ [] := by
    intro e; subst e; exact h.1
  rw [segText_cons]
  cases s <;> simp_all

/-- A path is neither an object nor a function type. -/
theorem path_start_obj {glob : Bool} {segs : List Txt} (hs : Segs segs) (n : Nat) (ty) (rest : List TT) :
    nextObject n ty ((if glob then colons else []) ++ segToks segs ++ rest) =
      .ok none ((if glob then colons else []) ++ segToks segs ++ rest) ∧
    nextFunctionLike ty ((if glob then colons else []) ++ segToks segs ++ rest) =
      .ok none ((if glob then colons else []) ++ segToks segs ++ rest) := by
  obtain ⟨s, r, rfl⟩ : ∃ s r, segs = s :: r := by
    cases segs with
    | nil => exact absurd hs id
    | cons s r => exact ⟨s, r, rfl⟩
  have hk := hs.2.1
  simp only [typeKeywords, List.mem_cons, List.not_mem_nil, or_false, not_or] at hk
  cases glob with
  | true => exact ⟨rfl, rfl⟩
  | false =>
    rw [segToks_cons]
    constructor
    · simp only [nextObject, M.bind_def, peek, Bool.false_eq_true, if_false, List.nil_append, List.cons_append,
        List.head?_cons, if_neg (not_or.2 ⟨hk.1, hk.2.1⟩)]
      rfl
    · simp only [nextFunctionLike, M.bind_def, peek, Bool.false_eq_true, if_false, List.nil_append, List.cons_append,
        List.head?_cons, if_neg hk.2.2.1, if_neg hk.2.2.2.1, if_neg hk.2.2.2.2.1, if_neg hk.2.2.2.2.2]
      rfl

/-- After a token that is not a group, `typeCore` is the path reader when no object or function
type starts there. -/
theorem typeCore_path {n : Nat} {ty} {r} {ts : List TT} (hg : ∀ d g, ts.head? ≠ some (.group d g))
    (ho : nextObject n ty ts = .ok none ts) (hf : nextFunctionLike ty ts = .ok none ts) {p : PType} {rest}
    (hp : nextPathType n ty r ts = .ok p rest) : typeCore n ty r ts = .ok (some p) rest := by
  unfold typeCore
  rw [M.bind_ok (show peek ts = .ok ts.head? ts from rfl)]
  have main : (do
      match ← nextObject n ty with
      | some t => pure (some (t.setRef r))
      | none => do
        match ← nextFunctionLike ty with
        | some t => pure (some (t.setRef r))
        | none => do
          let t ← nextPathType n ty r
          pure (some t) : DM (Option PType)) ts = .ok (some p) rest := by
    rw [M.bind_ok ho]
    simp only
    rw [M.bind_ok hf]
    simp only
    rw [M.bind_ok hp]
    rfl
  cases h : ts.head? with
  | none => exact main
  | some t =>
    cases t with
    | group d g => exact absurd h (hg d g)
    | _ => exact main

theorem pathToks_head {glob : Bool} {segs : List Txt} (hs : Segs segs) (rest : List TT) (d g) :
    ((if glob then colons else []) ++ segToks segs ++ rest).head? ≠ some (.group d g) := by
  obtain ⟨s, r, rfl⟩ : ∃ s r, segs = s :: r := by
    cases segs with
    | nil => exact absurd hs id
    | cons s r => exact ⟨s, r, rfl⟩
  cases glob <;> simp [segToks_cons, colons]

theorem nextPathType_plain {n : Nat} {ty} {r} {glob : Bool} {segs : List Txt} (hs : Segs segs) {rest : List TT}
    (hr : Follow rest) (hn : segs.length < n) :
    nextPathType n ty r ((if glob then colons else []) ++ segToks segs ++ rest) =
      .ok (.mk (.named (pref glob ++ segText segs)) none r none) rest := by
  obtain ⟨h, x, e1, e2⟩ := pathStart glob (segs_ne hs) hr.noColons hn
  unfold nextPathType
  rw [M.bind_ok e1, M.bind_ok e2, M.bind_ok hr.lt]
  simp only [Bool.false_eq_true, if_false, segText_ne hs]
  rw [M.bind_ok (hr.asOther ty)]
  rfl

theorem follow_comma (l : List TT) : Follow (.punct ',' :: l) := by
  cases l with
  | nil => simp [Follow]
  | cons x l => cases x <;> simp [Follow]

theorem follow_gt (l : List TT) : Follow (.punct '>' :: l) := by
  cases l with
  | nil => simp [Follow]
  | cons x l => cases x <;> simp [Follow]

theorem nextPathType_args {n : Nat} {ty} {r} {glob : Bool} {segs : List Txt} (hs : Segs segs) {a : RTy} {as : List RTy}
    (h : ∀ t ∈ a :: as, Reads ty t) {rest : List TT} (hn : segs.length < n) (hn' : as.length < n) :
    nextPathType n ty r ((if glob then colons else []) ++ segToks segs ++
        ([.punct '<'] ++ sepBy comma (a.toks :: toksList as) ++ [.punct '>'] ++ rest)) =
      .ok (.mk (.named (pref glob ++ segText segs)) (some (ptype a :: ptypes as)) r none) rest := by
  obtain ⟨hd, x, e1, e2⟩ := pathStart glob (segs_ne hs)
    (rest := [.punct '<'] ++ sepBy comma (a.toks :: toksList as) ++ [.punct '>'] ++ rest)
    (noColons_punct (by decide) _) hn
  have hsep : sepBy comma (a.toks :: toksList as) = a.toks ++ as.flatMap fun t => .punct ',' :: t.toks := by
    rw [toksList_eq]; exact sepToks a as
  unfold nextPathType
  rw [M.bind_ok e1, M.bind_ok e2, hsep,
    M.bind_ok (show nextExactPunct '<' _ = .ok true
      ((a.toks ++ as.flatMap fun t => .punct ',' :: t.toks) ++ [.punct '>'] ++ rest) from rfl)]
  simp only [if_true, segText_ne hs, Bool.false_eq_true, if_false]
  have hfol : Follow ((as.flatMap fun t => .punct ',' :: t.toks) ++ (.punct '>' :: rest)) := by
    cases as with
    | nil => exact follow_gt rest
    | cons u us => simp only [List.flatMap_cons, List.cons_append]; exact follow_comma _
  have hnp : NoPlus ((as.flatMap fun t => .punct ',' :: t.toks) ++ (.punct '>' :: rest)) := by
    cases as with
    | nil => rfl
    | cons u us => simp only [List.flatMap_cons, List.cons_append]; rfl
  have e3 := h a (by simp) _ hfol fun _ => hnp
  have e3' : (ty >>= expect) (a.toks ++ (as.flatMap fun t => .punct ',' :: t.toks) ++ [.punct '>'] ++ rest) =
      .ok (ptype a) ((as.flatMap fun t => .punct ',' :: t.toks) ++ (.punct '>' :: rest)) := by
    simp only [List.append_assoc, List.cons_append, List.nil_append] at e3 ⊢
    rw [M.bind_ok e3]; rfl
  rw [M.bind_ok e3', M.bind_ok (commaLoop_reads (fun t ht => h t (by simp [ht])) [ptype a] (follow_gt rest) rfl rfl hn'),
    M.bind_ok ((follow_gt rest).asOther ty)]
  have e4 : asAssociatedDefinition ty (.punct '>' :: rest) = .ok none (.punct '>' :: rest) := rfl
  rw [M.bind_ok e4]
  simp only
  rw [M.bind_ok (show nextExactPunct '>' (.punct '>' :: rest) = .ok true rest from rfl)]
  simp [assert, M.bind_def, ptypes_eq]

/-! ### Arrays, tuples, projections -/

theorem follow_semi (l : List TT) : Follow (.punct ';' :: l) := by
  cases l with
  | nil => simp [Follow]
  | cons x l => cases x <;> simp [Follow]

theorem isDig_showNat (n : Nat) : ∀ c ∈ showNat n, isDig c = true := by
  have := digits_showNat n
  intro c hc
  exact digits_isDig this c hc

theorem parseUsize_showNat {n : Nat} (h : n ≤ u64Max) : parseUsize (showNat n) = some n := by
  have hd := isDig_showNat n
  have hne := showNat_ne_nil n
  have hv : digitsVal? (showNat n) = some n := by
    unfold digitsVal?
    rw [if_pos ⟨hne, by simpa using hd⟩, digitsVal_showNat]
  unfold parseUsize
  split
  · rename_i r heq
    exact absurd (hd '+' (by rw [heq]; simp)) (by decide)
  · simp [hv, h]

theorem parseUsize_ident {s : Txt} (h : IdentLike s) : parseUsize s = none := by
  cases s with
  | nil => exact absurd h id
  | cons c r =>
    obtain ⟨h1, h2⟩ := h
    unfold parseUsize
    split
    · rename_i heq; injection heq with e _; exact absurd e h2
    · simp [digitsVal?, h1]

theorem reads_expect {ty : DM (Option PType)} {t : RTy} (h : Reads ty t) {rest : List TT} (hr : Follow rest)
    (hp : t.endsObj = true → NoPlus rest) :
    (ty >>= expect) (t.toks ++ rest) = .ok (ptype t) rest := by
  rw [M.bind_ok (h rest hr hp)]; rfl

theorem nextArray_lit {ty} {t : RTy} (h : Reads ty t) {n : Nat} (hn : n < 2 ^ 63) :
    ∃ rest, nextArray ty (t.toks ++ [.punct ';', .lit (showNat n)]) = .ok (ptype (.arr t n)) rest := by
  refine ⟨[.lit (showNat n)], ?_⟩
  unfold nextArray
  rw [M.bind_ok (reads_expect h (follow_semi _) fun _ => rfl),
    M.bind_ok (show nextExactPunct ';' [.punct ';', .lit (showNat n)] = .ok true [.lit (showNat n)] from rfl)]
  simp only [if_true]
  rw [M.bind_ok (show (peek >>= expect) [.lit (showNat n)] = .ok (.lit (showNat n)) [.lit (showNat n)] from rfl)]
  have hp : parseUsize (TT.text (.lit (showNat n))) = some n :=
    parseUsize_showNat (n := n) (by unfold u64Max; omega)
  simp only [hp]
  simp [asIsize, hn, ptype]

theorem nextArray_const {ty} {t : RTy} (h : Reads ty t) {segs : List Txt} (hs : Segs segs)
    (hc : Reads ty (.path false segs [])) :
    ∃ rest, nextArray ty (t.toks ++ [.punct ';'] ++ segToks segs) = .ok (ptype (.arrConst t segs)) rest := by
  refine ⟨[], ?_⟩
  have hc' := reads_expect hc (rest := []) (by simp [Follow]) fun _ => rfl
  simp only [RTy.toks, List.nil_append, List.append_nil, Bool.false_eq_true, if_false] at hc'
  rw [List.append_assoc]
  unfold nextArray
  rw [M.bind_ok (reads_expect h (rest := [TT.punct ';'] ++ segToks segs) (follow_semi _) fun _ => rfl),
    M.bind_ok (show nextExactPunct ';' ([.punct ';'] ++ segToks segs) = .ok true (segToks segs) from rfl)]
  simp only [if_true]
  obtain ⟨s, r, rfl⟩ : ∃ s r, segs = s :: r := by
    cases segs with
    | nil => exact absurd hs id
    | cons s r => exact ⟨s, r, rfl⟩
  rw [M.bind_ok (show (peek >>= expect) (segToks (s :: r)) = .ok (.ident s) (segToks (s :: r)) by
    rw [segToks_cons]; rfl)]
  have hp : parseUsize (TT.text (.ident s)) = none := parseUsize_ident hs.1
  simp only [hp]
  rw [M.bind_ok hc']
  simp [ptype, pref]

theorem nextArray_slice {ty} {t : RTy} (h : Reads ty t) :
    ∃ rest, nextArray ty t.toks = .ok (ptype (.slice t)) rest := by
  refine ⟨[], ?_⟩
  have := reads_expect h (rest := []) (by simp [Follow]) fun _ => rfl
  rw [List.append_nil] at this
  unfold nextArray
  rw [M.bind_ok this, M.bind_ok (show nextExactPunct ';' [] = .ok false [] from rfl)]
  rfl

theorem tupleLoop_reads {ty : DM (Option PType)} {t : RTy} {ts : List RTy} (h : ∀ u ∈ t :: ts, Reads ty u) {m : Nat}
    (acc : List PType) (hm : ts.length < m) :
    tupleLoop ty m acc (t.toks ++ ts.flatMap fun t => .punct ',' :: t.toks) = .ok (acc ++ (t :: ts).map ptype) [] := by
  induction ts generalizing m acc t with
  | nil =>
    obtain ⟨k, rfl⟩ : ∃ k, m = k + 1 := ⟨m - 1, by simp at hm; omega⟩
    have := h t (by simp) [] (by simp [Follow]) fun _ => rfl
    simp only [List.append_nil, List.flatMap_nil] at this ⊢
    unfold tupleLoop
    rw [M.bind_ok this]
    rfl
  | cons u us ih =>
    obtain ⟨k, rfl⟩ : ∃ k, m = k + 1 := ⟨m - 1, by simp at hm; omega⟩
    have h1 := h t (by simp) _ (follow_comma (u.toks ++ us.flatMap fun t => .punct ',' :: t.toks)) fun _ => rfl
    have h2 := ih (t := u) (fun x hx => h x (List.mem_cons_of_mem _ hx)) (m := k) (acc ++ [ptype t]) (by simp at hm; omega)
    unfold tupleLoop
    simp only [List.flatMap_cons, List.cons_append] at h1 ⊢
    rw [M.bind_ok h1]
    simp only
    rw [M.bind_ok (show nextExactPunct ',' _ = .ok true _ from rfl)]
    simp only [if_true]
    rw [h2]
    simp

theorem nextTuple_reads {ty : DM (Option PType)} {ts : List RTy} (h : ∀ u ∈ ts, Reads ty u) {n : Nat}
    (hnil : ty [] = .ok (some noneTy) []) (hn : ts.length < n) :
    nextTuple n ty (sepBy comma (toksList ts)) = .ok (ptype (.tuple ts)) [] := by
  unfold nextTuple
  cases ts with
  | nil =>
    obtain ⟨k, rfl⟩ : ∃ k, n = k + 1 := ⟨n - 1, by simp at hn; omega⟩
    have : tupleLoop ty (k + 1) [] (sepBy comma (toksList [])) = .ok [noneTy] [] := by
      unfold tupleLoop
      rw [M.bind_ok (show ty (sepBy comma (toksList [])) = _ from hnil)]
      rfl
    rw [M.bind_ok this]
    rfl
  | cons t ts =>
    have := tupleLoop_reads h (m := n) [] (by simp at hn; omega)
    rw [toksList_eq, sepToks, M.bind_ok this]
    simp [ptype, ptypes_eq]

theorem setRef_none_path (c w r a) : (PType.mk c w r a).setRef none = .mk c w none a := rfl

theorem nextPathType_proj {n : Nat} {ty} {r} {self : List Txt} {tr : RTy} {name : Txt}
    (hname : Reads ty (.path false [name] []))
    (hself : ∀ rest, ty (segToks self ++ [.ident "as".toList] ++ tr.toks ++ (.punct '>' :: rest)) =
      .ok (some (.mk (.named (segText self)) none none (some (ptype tr)))) (.punct '>' :: rest))
    (hn : 0 < n) {rest : List TT} (hr : Follow rest) :
    nextPathType n ty r ((RTy.proj self tr name).toks ++ rest) = .ok ((ptype (.proj self tr name)).setRef r) rest := by
  obtain ⟨k, rfl⟩ : ∃ k, n = k + 1 := ⟨n - 1, by omega⟩
  unfold nextPathType
  simp only [RTy.toks, List.append_assoc, List.cons_append, List.nil_append, colons] at hself ⊢
  have h1 := hself (.punct ':' :: .punct ':' :: .ident name :: rest)
  rw [M.bind_ok (show nextIdent _ = .ok none _ from rfl),
    M.bind_ok (show pathLoop (k + 1) (Option.getD none []) _ = .ok [] _ from noColons_punct (by decide) _ k []),
    M.bind_ok (show nextExactPunct '<' _ = .ok true _ from rfl)]
  simp only [if_true, List.isEmpty_nil]
  have h2 : (ty >>= expect) (segToks self ++ TT.ident "as".toList ::
      (tr.toks ++ TT.punct '>' :: TT.punct ':' :: TT.punct ':' :: TT.ident name :: rest)) =
      .ok (.mk (.named (segText self)) none none (some (ptype tr)))
        (.punct '>' :: .punct ':' :: .punct ':' :: .ident name :: rest) := by
    rw [M.bind_ok h1]; rfl
  have h3 := reads_expect hname hr (fun h => by simp [RTy.endsObj] at h)
  simp only [RTy.toks, Bool.false_eq_true, if_false, List.nil_append, List.append_nil, segToks, List.map_cons,
    List.map_nil, sepBy, List.cons_append] at h3
  rw [M.bind_ok h2]
  simp only [PType.cat]
  rw [M.bind_ok (show assert true _ = .ok () _ from rfl), M.bind_ok (show nextExactPunct '>' _ = .ok true _ from rfl),
    M.bind_ok (show assert true _ = .ok () _ from rfl),
    M.bind_ok (show nextExactPunct ':' _ = .ok true _ from rfl),
    M.bind_ok (show nextExactPunct ':' _ = .ok true _ from rfl)]
  rw [M.bind_ok (show assert (true && true) _ = .ok () _ from rfl), M.bind_ok h3,
    M.bind_ok (show expect (PType.mk (.named (segText self)) none none (some (ptype tr))).asOther _ = .ok (ptype tr) _ from rfl)]
  simp [ptype, ptypes, PType.setRef, PType.wraps, pref, segText, sepBy]

/-! ### The induction -/

theorem typeBody_core {n : Nat} {ty} {ts : List TT} (h : ∀ c, ts.head? = some (.punct c) → c ≠ ',' ∧ c ≠ '!' ∧ c ≠ '\'' ∧ c ≠ '&') :
    typeBody n ty ts = typeCore n ty none ts := by
  have key : ∀ c, (c = ',' ∨ c = '!' ∨ c = '\'' ∨ c = '&') → nextExactPunct c ts = .ok false ts := by
    intro c hc
    cases ts with
    | nil => rfl
    | cons t ts =>
      cases t with
      | punct d =>
        have := h d rfl
        have : d ≠ c := by
          rintro rfl
          rcases hc with rfl | rfl | rfl | rfl <;> simp at this
        simp [nextExactPunct, this]
      | _ => rfl
  unfold typeBody
  rw [M.bind_ok (key ',' (by simp))]
  simp only [Bool.false_eq_true, if_false]
  rw [M.bind_ok (key '!' (by simp))]
  simp only [Bool.false_eq_true, if_false]
  rw [M.bind_ok (key '\'' (by simp))]
  simp only [Bool.false_eq_true, if_false]
  rw [M.bind_ok (key '&' (by simp))]
  simp only [Bool.false_eq_true, if_false]

theorem onStream_ok {α : Type} {p : DM α} {ts rest s : List TT} {a : α} (h : p ts = .ok a rest) :
    onStream ts p s = .ok a s := by
  simp [onStream, h]

theorem typeCore_paren {n : Nat} {ty} {r} {ts rest : List TT} {p : PType} {x} (h : nextTuple n ty ts = .ok p x) :
    typeCore n ty r (.group .paren ts :: rest) = .ok (some (p.setRef r)) rest := by
  unfold typeCore
  rw [M.bind_ok (show peek (.group .paren ts :: rest) = .ok (some (.group .paren ts)) _ from rfl)]
  simp only
  rw [M.bind_ok (show next _ = .ok _ rest from rfl), M.bind_ok (onStream_ok h)]
  rfl

theorem typeCore_bracket {n : Nat} {ty} {r} {ts rest : List TT} {p : PType} {x} (h : nextArray ty ts = .ok p x) :
    typeCore n ty r (.group .bracket ts :: rest) = .ok (some (p.setRef r)) rest := by
  unfold typeCore
  rw [M.bind_ok (show peek (.group .bracket ts :: rest) = .ok (some (.group .bracket ts)) _ from rfl)]
  simp only
  rw [M.bind_ok (show next _ = .ok _ rest from rfl), M.bind_ok (onStream_ok h)]
  rfl

theorem nextType_nil (n : Nat) : nextType (n + 2) [] = .ok (some noneTy) [] := rfl

theorem Ev.succ {P : Nat → Prop} (h : Ev fun n => P (n + 1)) : Ev P := by
  obtain ⟨N, h⟩ := h
  refine ⟨N + 1, fun n hn => ?_⟩
  have := h (n - 1) (by omega)
  simp only [Nat.sub_add_cancel (show 1 ≤ n by omega)] at this
  exact this

theorem Ev.gt (k : Nat) : Ev fun n => k < n := ⟨k + 1, fun n h => by omega⟩

theorem Ev.nil : Ev fun n => nextType n [] = .ok (some noneTy) [] :=
  ⟨2, fun n hn => by
    obtain ⟨k, rfl⟩ : ∃ k, n = k + 2 := ⟨n - 2, by omega⟩
    exact nextType_nil k⟩

/-- What the induction proves of `t`. -/
def Good (t : RTy) : Prop :=
  Ev fun n => Reads (nextType n) t ∧ (t.referable → Core n (nextType n) t)

theorem good_of_core {t : RTy} (hp : ∀ rest c, (t.toks ++ rest).head? = some (.punct c) → c ≠ ',' ∧ c ≠ '!' ∧ c ≠ '\'' ∧ c ≠ '&')
    (hs : (ptype t).setRef none = ptype t) (h : Ev fun n => Core n (nextType n) t) : Good t := by
  have h1 : Ev fun n => Reads (nextType n) t := Ev.succ <| h.mono fun n hc rest hr hp2 => by
    have := hc none rest hr hp2
    rw [hs] at this
    show typeBody n (nextType n) _ = _
    rw [typeBody_core (hp rest)]
    exact this
  exact (h1.and h).mono fun n h => ⟨h.1, fun _ => h.2⟩

theorem path_head {glob : Bool} {segs : List Txt} (hs : Segs segs) (rest : List TT) (c : Char)
    (h : ((if glob then colons else []) ++ segToks segs ++ rest).head? = some (.punct c)) : c = ':' := by
  obtain ⟨s, r, rfl⟩ : ∃ s r, segs = s :: r := by
    cases segs with
    | nil => exact absurd hs id
    | cons s r => exact ⟨s, r, rfl⟩
  cases glob
  · simp [segToks_cons] at h
  · simp [colons] at h; exact h.symm

theorem good_plain {glob : Bool} {segs : List Txt} (hs : Segs segs) : Good (.path glob segs []) := by
  refine good_of_core ?_ rfl ?_
  · intro rest c h
    simp only [RTy.toks, List.append_nil] at h
    have := path_head hs rest c h
    subst this; decide
  · refine (Ev.gt segs.length).mono fun n hn r rest hr hp => ?_
    simp only [RTy.toks, List.append_nil]
    obtain ⟨ho, hf⟩ := path_start_obj (glob := glob) hs n (nextType n) rest
    exact typeCore_path (pathToks_head hs rest) ho hf (nextPathType_plain hs hr hn)

theorem good_reads {ts : List RTy} (h : ∀ t ∈ ts, Good t) : Ev fun n => ∀ t ∈ ts, Reads (nextType n) t :=
  Ev.list ts fun t ht => (h t ht).mono fun _ h => h.1

theorem good_args {glob : Bool} {segs : List Txt} (hs : Segs segs) {a : RTy} {as : List RTy}
    (h : ∀ t ∈ a :: as, Good t) : Good (.path glob segs (a :: as)) := by
  refine good_of_core ?_ rfl ?_
  · intro rest c h
    simp only [RTy.toks, List.append_assoc] at h
    rw [← List.append_assoc] at h
    have := path_head hs _ c h
    subst this; decide
  · refine (((Ev.gt segs.length).and (Ev.gt as.length)).and (good_reads h)).mono fun n hn r rest hr hp => ?_
    have e : (RTy.path glob segs (a :: as)).toks ++ rest = (if glob then colons else []) ++ segToks segs ++
        ([.punct '<'] ++ sepBy comma (a.toks :: toksList as) ++ [.punct '>'] ++ rest) := by
      simp [RTy.toks]
    rw [e]
    obtain ⟨ho, hf⟩ := path_start_obj (glob := glob) hs n (nextType n) _
    exact typeCore_path (pathToks_head hs _) ho hf (nextPathType_args hs hn.2 hn.1.1 hn.1.2)

theorem reads_self_as {n : Nat} {self : List Txt} (hs : Segs self) {tr : RTy} (htr : Reads (nextType n) tr)
    (hn : self.length < n) (rest : List TT) :
    nextType (n + 1) (segToks self ++ [.ident "as".toList] ++ tr.toks ++ (.punct '>' :: rest)) =
      .ok (some (.mk (.named (segText self)) none none (some (ptype tr)))) (.punct '>' :: rest) := by
  show typeBody n (nextType n) _ = _
  have e : segToks self ++ [.ident "as".toList] ++ tr.toks ++ (.punct '>' :: rest) =
    (if false then colons else []) ++ segToks self ++ (.ident "as".toList :: (tr.toks ++ (.punct '>' :: rest))) := by simp
  rw [e]
  obtain ⟨ho, hf⟩ := path_start_obj (glob := false) hs n (nextType n) (.ident "as".toList :: (tr.toks ++ (.punct '>' :: rest)))
  rw [typeBody_core (fun c h => by
    have := path_head (glob := false) hs _ c h
    subst this; decide)]
  refine typeCore_path (pathToks_head hs _) ho hf ?_
  obtain ⟨hd, x, e1, e2⟩ := pathStart false (segs_ne hs) (noColons_ident "as".toList (tr.toks ++ (.punct '>' :: rest))) hn
  unfold nextPathType
  rw [M.bind_ok e1, M.bind_ok e2, M.bind_ok (show nextExactPunct '<' _ = .ok false _ from rfl)]
  simp only [Bool.false_eq_true, if_false, segText_ne hs]
  have : asOtherType (nextType n) (.ident "as".toList :: (tr.toks ++ (.punct '>' :: rest))) =
      .ok (some (ptype tr)) (.punct '>' :: rest) := by
    unfold asOtherType
    rw [M.bind_ok (show peek _ = .ok (some (.ident "as".toList)) _ from rfl)]
    simp only [if_true]
    rw [M.bind_ok (show next _ = .ok _ (tr.toks ++ (.punct '>' :: rest)) from rfl),
      M.bind_ok (reads_expect htr (follow_gt rest) fun _ => rfl)]
    rfl
  rw [M.bind_ok this]
  simp [pref]

/-! ### Functions, objects, associated types -/

/-- The tree of the argument of a function type. -/
def argTy : List RTy → PType
  | [] => noneTy
  | a :: _ => ptype a

theorem ptype_fnTy (k : FnKw) (args : List RTy) : ptype (.fnTy k args) =
    .mk (.fn k.ty (some (argTy args)) none)
      (if k ≠ .bare ∨ (argTy args).wraps.isSome then some (fnWraps (some (argTy args)) none) else none) none none := by
  cases args <;> rfl

theorem ptype_fnRet (k : FnKw) (args : List RTy) (r : RTy) : ptype (.fnRet k args r) =
    .mk (.fn k.ty (some (argTy args)) (some (ptype r))) (some (fnWraps (some (argTy args)) (some (ptype r)))) none none := by
  cases args <;> rfl

theorem fnArgs {ty : DM (Option PType)} {args : List RTy} (hl : args.length ≤ 1) (h : ∀ t ∈ args, Reads ty t)
    (hnil : ty [] = .ok (some noneTy) []) :
    (ty >>= expect) (sepBy comma (toksList args)) = .ok (argTy args) [] := by
  rcases args with _ | ⟨a, _ | ⟨b, as⟩⟩
  · rw [M.bind_ok (show ty (sepBy comma (toksList [])) = _ from hnil)]; rfl
  · have := h a (by simp) [] (by simp [Follow]) fun _ => rfl
    rw [List.append_nil] at this
    rw [M.bind_ok (show ty (sepBy comma (toksList [a])) = _ from this)]; rfl
  · simp at hl

theorem functionLike {ty : DM (Option PType)} (k : FnKw) {gs rest rest' x : List TT} {a : PType} {ro : Option PType}
    (ha : (ty >>= expect) gs = .ok a x) (hr : nextReturnType ty rest = .ok ro rest') :
    nextFunctionLike ty (.ident k.text :: .group .paren gs :: rest) =
      .ok (some (.mk (.fn k.ty (some a) ro)
        (if k ≠ .bare ∨ a.wraps.isSome ∨ ro.isSome then some (fnWraps (some a) ro) else none) none none)) rest' := by
  have hs : onStream gs (ty >>= expect) rest = .ok a rest := onStream_ok ha
  have hc : ∀ b c, nextClosure ty b c (.group .paren gs :: rest) =
      .ok (.mk (.fn (.closure b c) (some a) ro) (some (fnWraps (some a) ro)) none none) rest' := by
    intro b c
    unfold nextClosure
    rw [M.bind_ok (show nextGroup (.group .paren gs :: rest) = .ok (some (.paren, gs)) rest from rfl)]
    simp only
    have : (onStream gs (ty >>= expect) >>= fun t => pure (some t) : DM (Option PType)) rest = .ok (some a) rest := by
      rw [M.bind_ok hs]; rfl
    rw [M.bind_ok this, M.bind_ok hr]
    rfl
  unfold nextFunctionLike
  rw [M.bind_ok (show peek _ = .ok (some (.ident k.text)) _ from rfl)]
  cases k with
  | bare =>
    simp only
    rw [if_pos (show FnKw.bare.text = "fn".toList by decide +kernel), M.bind_ok (show next _ = .ok _ (.group .paren gs :: rest) from rfl),
      M.bind_ok (show (nextGroup >>= expect) (.group .paren gs :: rest) = .ok (.paren, gs) rest from rfl), M.bind_ok hs, M.bind_ok hr]
    simp [FnKw.ty]
  | fn =>
    simp only
    rw [if_neg (show ¬FnKw.fn.text = "fn".toList by decide +kernel), if_pos (show FnKw.fn.text = "Fn".toList by decide +kernel),
      M.bind_ok (show next _ = .ok _ (.group .paren gs :: rest) from rfl), M.bind_ok (hc _ _)]
    simp [FnKw.ty]
  | fnMut =>
    simp only
    rw [if_neg (show ¬FnKw.fnMut.text = "fn".toList by decide +kernel), if_neg (show ¬FnKw.fnMut.text = "Fn".toList by decide +kernel),
      if_pos (show FnKw.fnMut.text = "FnMut".toList by decide +kernel),
      M.bind_ok (show next _ = .ok _ (.group .paren gs :: rest) from rfl), M.bind_ok (hc _ _)]
    simp [FnKw.ty]
  | fnOnce =>
    simp only
    rw [if_neg (show ¬FnKw.fnOnce.text = "fn".toList by decide +kernel), if_neg (show ¬FnKw.fnOnce.text = "Fn".toList by decide +kernel),
      if_neg (show ¬FnKw.fnOnce.text = "FnMut".toList by decide +kernel), if_pos (show FnKw.fnOnce.text = "FnOnce".toList by decide +kernel),
      M.bind_ok (show next _ = .ok _ (.group .paren gs :: rest) from rfl), M.bind_ok (hc _ _)]
    simp [FnKw.ty]

theorem typeCore_fn {n : Nat} {ty} {r} (k : FnKw) {gs rest rest' : List TT} {p : PType}
    (h : nextFunctionLike ty (.ident k.text :: .group .paren gs :: rest) = .ok (some p) rest') :
    typeCore n ty r (.ident k.text :: .group .paren gs :: rest) = .ok (some (p.setRef r)) rest' := by
  have ho : nextObject n ty (.ident k.text :: .group .paren gs :: rest) = .ok none (.ident k.text :: .group .paren gs :: rest) := by
    unfold nextObject
    rw [M.bind_ok (show peek _ = .ok (some (.ident k.text)) _ from rfl)]
    have : ¬(k.text = "impl".toList ∨ k.text = "dyn".toList) := by cases k <;> decide +kernel
    simp only [if_neg this]
    rfl
  unfold typeCore
  rw [M.bind_ok (show peek _ = .ok (some (.ident k.text)) _ from rfl)]
  simp only
  rw [M.bind_ok ho]
  simp only
  rw [M.bind_ok h]
  rfl

theorem good_fnTy {k : FnKw} {args : List RTy} (hl : args.length ≤ 1) (h : ∀ t ∈ args, Good t) : Good (.fnTy k args) := by
  refine good_of_core (fun rest c hc => by simp [RTy.toks] at hc) (by rw [ptype_fnTy]; rfl) ?_
  refine ((good_reads h).and Ev.nil).mono fun n hn r rest hr hp => ?_
  have := functionLike k (fnArgs hl hn.1 hn.2) (hr.arrow (nextType n))
  rw [ptype_fnTy]
  simp only [RTy.toks, List.cons_append, List.nil_append]
  have := typeCore_fn (n := n) (r := r) k this
  simpa using this

theorem good_fnRet {k : FnKw} {args : List RTy} {r : RTy} (hl : args.length ≤ 1) (h : ∀ t ∈ args, Good t) (hr : Good r) :
    Good (.fnRet k args r) := by
  refine good_of_core (fun rest c hc => by simp [RTy.toks] at hc) (by rw [ptype_fnRet]; rfl) ?_
  refine (((good_reads h).and Ev.nil).and hr).mono fun n hn rr rest hf hp => ?_
  have hret : nextReturnType (nextType n) (.punct '-' :: .punct '>' :: (r.toks ++ rest)) = .ok (some (ptype r)) rest := by
    simp only [nextReturnType, and_self, if_true]
    rw [M.bind_ok (reads_expect hn.2.1 hf fun e => hp e)]
    rfl
  have := functionLike k (fnArgs hl hn.1.1 hn.1.2) hret
  rw [ptype_fnRet]
  simp only [RTy.toks, List.cons_append, List.nil_append]
  have := typeCore_fn (n := n) (r := rr) k this
  simpa using this

theorem follow_plus (l : List TT) : Follow (.punct '+' :: l) := by
  rcases l with _ | ⟨t, l⟩
  · simp [Follow]
  · cases t <;> simp [Follow]

theorem follow_eq (l : List TT) : Follow (.punct '=' :: l) := by
  rcases l with _ | ⟨t, l⟩
  · simp [Follow]
  · cases t <;> simp [Follow]

/-- `+ B + C`. -/
def morePlus (bs : List RTy) : List TT := bs.flatMap fun b => .punct '+' :: b.toks

theorem plusLoop_reads {ty : DM (Option PType)} {bs : List RTy} (h : ∀ x ∈ bs, Reads ty x)
    (he : ∀ x ∈ bs, x.endsObj = false) {m : Nat} (hm : bs.length < m) (acc : List PType) {rest : List TT}
    (hf : Follow rest) (hp : NoPlus rest) :
    plusLoop ty m acc (morePlus bs ++ rest) = .ok (acc ++ bs.map ptype) rest := by
  induction bs generalizing m acc with
  | nil =>
    obtain ⟨j, rfl⟩ : ∃ j, m = j + 1 := ⟨m - 1, by simp at hm; omega⟩
    unfold plusLoop
    simp only [morePlus, List.flatMap_nil, List.nil_append]
    rw [M.bind_ok hp]
    simp
  | cons c cs ih =>
    obtain ⟨j, rfl⟩ : ∃ j, m = j + 1 := ⟨m - 1, by simp at hm; omega⟩
    have e : morePlus (c :: cs) ++ rest = .punct '+' :: (c.toks ++ (morePlus cs ++ rest)) := by simp [morePlus]
    have hf' : Follow (morePlus cs ++ rest) := by
      cases cs with
      | nil => simpa [morePlus] using hf
      | cons d ds => simp only [morePlus, List.flatMap_cons, List.cons_append]; exact follow_plus _
    unfold plusLoop
    rw [e, M.bind_ok (show nextExactPunct '+' _ = .ok true _ from rfl)]
    simp only [if_true]
    rw [M.bind_ok (reads_expect (h c (by simp)) hf' fun e => by rw [he c (by simp)] at e; exact absurd e (by simp)),
      ih (fun x hx => h x (by simp [hx])) (fun x hx => he x (by simp [hx])) (by simp at hm; omega)]
    simp

theorem trait_ptype {b : RTy} (h : b.isTrait) : (ptype b).asOther = none ∧ b.endsObj = false := by
  cases b with
  | path glob segs args => cases args <;> exact ⟨rfl, rfl⟩
  | fnTy k args => cases args <;> exact ⟨rfl, rfl⟩
  | fnRet k args r =>
    simp [RTy.isTrait] at h
    cases args <;> exact ⟨rfl, h.2⟩
  | assoc => exact ⟨rfl, rfl⟩
  | _ => simp [RTy.isTrait] at h

theorem good_obj {d : Bool} {b : RTy} {bs : List RTy} (hb : Good b) (h : ∀ t ∈ bs, Good t) (ht : b.isTrait)
    (he : ∀ t ∈ bs, t.endsObj = false) : Good (.obj d b bs) := by
  refine good_of_core (fun rest c hc => by simp [RTy.toks] at hc) rfl ?_
  refine (((good_reads h).and hb).and (Ev.gt bs.length)).mono fun n hn r rest hf hp => ?_
  have hp := hp rfl
  have e : (RTy.obj d b bs).toks ++ rest = .ident (objKw d) :: (b.toks ++ (morePlus bs ++ rest)) := by
    simp only [RTy.toks, toksList_eq, sepBy_flatMap, List.flatMap_map, morePlus, List.cons_append, List.append_assoc]
    rfl
  have hf' : Follow (morePlus bs ++ rest) := by
    cases bs with
    | nil => simpa [morePlus] using hf
    | cons d ds => simp only [morePlus, List.flatMap_cons, List.cons_append]; exact follow_plus _
  have ho : nextObject n (nextType n) (.ident (objKw d) :: (b.toks ++ (morePlus bs ++ rest))) =
      .ok (some (.mk (.object d (ptype b :: ptypes bs)) (ptype b).wraps (ptype b).refTy (ptype b).asOther)) rest := by
    unfold nextObject
    rw [M.bind_ok (show peek _ = .ok (some (.ident (objKw d))) _ from rfl)]
    have : (objKw d = "impl".toList ∨ objKw d = "dyn".toList) := by cases d <;> decide +kernel
    simp only [if_pos this]
    rw [M.bind_ok (show next _ = .ok _ (b.toks ++ (morePlus bs ++ rest)) from rfl),
      M.bind_ok (reads_expect hn.1.2.1 hf' fun e => by rw [(trait_ptype ht).2] at e; exact absurd e (by simp)),
      M.bind_ok (plusLoop_reads hn.1.1 he hn.2 _ hf hp)]
    have : decide (objKw d = "dyn".toList) = d := by cases d <;> decide +kernel
    simp only [this, ptypes_eq]
    rfl
  rw [e]
  unfold typeCore
  rw [M.bind_ok (show peek _ = .ok (some (.ident (objKw d))) _ from rfl)]
  simp only
  rw [M.bind_ok ho]
  simp [ptype, PType.setRef, (trait_ptype ht).1]

theorem good_assoc {glob : Bool} {segs : List Txt} {name : Txt} {t : RTy} (hs : Segs segs) (hn : Segs [name]) (h : Good t) :
    Good (.assoc glob segs name t) := by
  refine good_of_core ?_ rfl ?_
  · intro rest c h
    simp only [RTy.toks, List.append_assoc] at h
    rw [← List.append_assoc] at h
    have := path_head hs _ c h
    subst this; decide
  · refine ((h.and (good_plain (glob := false) hn)).and (Ev.gt segs.length)).mono fun n hh r rest hf hp => ?_
    have e : (RTy.assoc glob segs name t).toks ++ rest = (if glob then colons else []) ++ segToks segs ++
        (.punct '<' :: .ident name :: .punct '=' :: (t.toks ++ .punct '>' :: rest)) := by
      simp [RTy.toks]
    rw [e]
    obtain ⟨ho, hf'⟩ := path_start_obj (glob := glob) hs n (nextType n) (.punct '<' :: .ident name :: .punct '=' :: (t.toks ++ .punct '>' :: rest))
    refine typeCore_path (pathToks_head hs _) ho hf' ?_
    obtain ⟨hd, x, e1, e2⟩ := pathStart glob (segs_ne hs)
      (rest := .punct '<' :: .ident name :: .punct '=' :: (t.toks ++ .punct '>' :: rest)) (noColons_punct (by decide) _) hh.2
    have hname := reads_expect hh.1.2.1 (follow_eq (t.toks ++ .punct '>' :: rest)) fun _ => rfl
    simp only [RTy.toks, Bool.false_eq_true, if_false, List.nil_append, List.append_nil, segToks, List.map_cons,
      List.map_nil, sepBy, List.cons_append] at hname
    unfold nextPathType
    rw [M.bind_ok e1, M.bind_ok e2, M.bind_ok (show nextExactPunct '<' _ = .ok true
      (.ident name :: .punct '=' :: (t.toks ++ .punct '>' :: rest)) from rfl)]
    simp only [if_true, segText_ne hs, Bool.false_eq_true, if_false]
    have hc : commaLoop (nextType n) n [ptype (.path false [name] [])] (.punct '=' :: (t.toks ++ .punct '>' :: rest)) =
        .ok [ptype (.path false [name] [])] (.punct '=' :: (t.toks ++ .punct '>' :: rest)) := by
      have := commaLoop_reads (ty := nextType n) (ts := []) (m := n) (by simp) [ptype (.path false [name] [])]
        (follow_eq (t.toks ++ .punct '>' :: rest)) rfl rfl (by simp; have := hh.2; omega)
      simpa using this
    have ha : asAssociatedDefinition (nextType n) (.punct '=' :: (t.toks ++ .punct '>' :: rest)) =
        .ok (some (ptype t)) (.punct '>' :: rest) := by
      unfold asAssociatedDefinition
      rw [M.bind_ok (show nextExactPunct '=' _ = .ok true (t.toks ++ .punct '>' :: rest) from rfl)]
      simp only [if_true]
      rw [M.bind_ok (reads_expect hh.1.1.1 (follow_gt rest) fun _ => rfl)]
      rfl
    rw [M.bind_ok hname, M.bind_ok hc, M.bind_ok ((follow_eq _).asOther _), M.bind_ok ha]
    simp only
    rw [M.bind_ok (show nextExactPunct '>' (.punct '>' :: rest) = .ok true rest from rfl)]
    simp [assert, M.bind_def, ptype, PType.setRef, pref, segText, sepBy]

mutual
theorem good : ∀ t : RTy, t.WF → Good t
  | .path glob segs [], h => good_plain h.1
  | .path glob segs (a :: as), h => good_args h.1 (goods (a :: as) h.2)
  | .tuple ts, h => by
    refine good_of_core (fun rest c hc => by simp [RTy.toks] at hc) (by cases ts <;> rfl) ?_
    refine (((Ev.gt ts.length).and Ev.nil).and (good_reads (goods ts h))).mono fun n hn r rest hr hp => ?_
    exact typeCore_paren (nextTuple_reads hn.2 hn.1.2 hn.1.1)
  | .arr t n, h => by
    refine good_of_core (fun rest c hc => by simp [RTy.toks] at hc) rfl ?_
    refine (good t h.1).mono fun m hm r rest hr hp => ?_
    obtain ⟨x, hx⟩ := nextArray_lit hm.1 h.2
    exact typeCore_bracket hx
  | .arrConst t segs, h => by
    refine good_of_core (fun rest c hc => by simp [RTy.toks] at hc) rfl ?_
    refine ((good t h.1).and (good_plain (glob := false) h.2)).mono fun m hm r rest hr hp => ?_
    obtain ⟨x, hx⟩ := nextArray_const hm.1.1 h.2 hm.2.1
    exact typeCore_bracket hx
  | .slice t, h => by
    refine good_of_core (fun rest c hc => by simp [RTy.toks] at hc) rfl ?_
    refine (good t h).mono fun m hm r rest hr hp => ?_
    obtain ⟨x, hx⟩ := nextArray_slice hm.1
    exact typeCore_bracket hx
  | .ref l t, h => by
    have h1 : Ev fun n => Reads (nextType n) (.ref l t) := Ev.succ <| (good t h.1).mono fun n hn rest hr hp => by
      have hc := hn.2 h.2 (some l) rest hr (fun e => hp e)
      show typeBody n (nextType n) _ = _
      cases l with
      | none =>
        have hl : nextLifetime (t.toks ++ rest) = .ok none (t.toks ++ rest) := by
          have : ∀ c, (t.toks ++ rest).head? = some (.punct c) → c ≠ '\'' := by
            intro c hc
            have hw := h.1
            have hr := h.2
            cases t with
            | path glob segs args =>
              have hc' : ∃ x, ((if glob then colons else []) ++ segToks segs ++ x).head? = some (.punct c) := by
                cases args with
                | nil => exact ⟨[] ++ rest, by simpa only [RTy.toks, List.append_assoc] using hc⟩
                | cons a as =>
                  simp only [RTy.toks, List.append_assoc] at hc
                  rw [← List.append_assoc] at hc
                  exact ⟨_, hc⟩
              obtain ⟨x, hc'⟩ := hc'
              have := path_head hw.1 _ c hc'
              subst this; decide
            | ref | lifetime | never => exact absurd hr (by simp [RTy.referable])
            | proj self tr name => simp [RTy.toks] at hc; subst hc; decide
            | assoc glob segs name t =>
              simp only [RTy.toks, List.append_assoc] at hc
              rw [← List.append_assoc] at hc
              have := path_head hw.1 _ c hc
              subst this; decide
            | _ => simp [RTy.toks] at hc
          generalize t.toks ++ rest = ts at this ⊢
          cases ts with
          | nil => rfl
          | cons x ts =>
            cases x with
            | punct c => simp [nextLifetime, this c rfl]
            | _ => rfl
        unfold typeBody
        simp only [RTy.toks, List.cons_append]
        rw [M.bind_ok (show nextExactPunct ',' _ = .ok false _ from rfl)]
        simp only [Bool.false_eq_true, if_false]
        rw [M.bind_ok (show nextExactPunct '!' _ = .ok false _ from rfl)]
        simp only [Bool.false_eq_true, if_false]
        rw [M.bind_ok (show nextExactPunct '\'' _ = .ok false _ from rfl)]
        simp only [Bool.false_eq_true, if_false]
        rw [M.bind_ok (show nextExactPunct '&' _ = .ok true (t.toks ++ rest) from rfl)]
        simp only [if_true]
        rw [M.bind_ok hl]
        exact hc
      | some l =>
        unfold typeBody
        simp only [RTy.toks, List.cons_append]
        rw [M.bind_ok (show nextExactPunct ',' _ = .ok false _ from rfl)]
        simp only [Bool.false_eq_true, if_false]
        rw [M.bind_ok (show nextExactPunct '!' _ = .ok false _ from rfl)]
        simp only [Bool.false_eq_true, if_false]
        rw [M.bind_ok (show nextExactPunct '\'' _ = .ok false _ from rfl)]
        simp only [Bool.false_eq_true, if_false]
        rw [M.bind_ok (show nextExactPunct '&' _ = .ok true (.punct '\'' :: .ident l :: (t.toks ++ rest)) from rfl)]
        simp only [if_true]
        rw [M.bind_ok (show nextLifetime _ = .ok (some l) (t.toks ++ rest) from rfl)]
        exact hc
    exact h1.mono fun n h => ⟨h, fun hr => by simp [RTy.referable] at hr⟩
  | .lifetime l, _ => by
    have h1 : Ev fun n => Reads (nextType n) (.lifetime l) := Ev.succ <| Ev.of fun n rest hr hp => rfl
    exact h1.mono fun n h => ⟨h, fun hr => by simp [RTy.referable] at hr⟩
  | .never, _ => by
    have h1 : Ev fun n => Reads (nextType n) .never := Ev.succ <| Ev.of fun n rest hr hp => rfl
    exact h1.mono fun n h => ⟨h, fun hr => by simp [RTy.referable] at hr⟩
  | .proj self tr name, h => by
    refine good_of_core (fun rest c hc => by
      simp [RTy.toks] at hc; subst hc; decide) rfl ?_
    have hself : Ev fun n => ∀ rest, nextType n (segToks self ++ [.ident "as".toList] ++ tr.toks ++ (.punct '>' :: rest)) =
      .ok (some (.mk (.named (segText self)) none none (some (ptype tr)))) (.punct '>' :: rest) :=
      Ev.succ <| ((good tr h.2.1).and (Ev.gt self.length)).mono fun n hn rest => reads_self_as h.1 hn.1.1 hn.2 rest
    refine ((((good tr h.2.1).and (good_plain (glob := false) h.2.2)).and hself).and (Ev.gt 0)).mono fun n hn r rest hr hp => ?_
    refine typeCore_path (fun d g => by simp [RTy.toks]) rfl rfl ?_
    exact nextPathType_proj hn.1.1.2.1 hn.1.2 hn.2 hr
  | .fnTy k args, h => good_fnTy h.1 (goods args h.2)
  | .fnRet k args r, h => good_fnRet h.1 (goods args h.2.1) (good r h.2.2)
  | .obj d b bs, h => good_obj (good b h.1) (goods bs h.2.1) h.2.2.1 h.2.2.2
  | .assoc glob segs name t, h => good_assoc h.1 h.2.1 (good t h.2.2)
theorem goods : ∀ ts : List RTy, WFList ts → ∀ t ∈ ts, Good t
  | [], _ => by simp
  | t :: ts, h => by
    intro u hu
    rcases List.mem_cons.1 hu with e | hu
    · rw [e]; exact good t h.1
    · exact goods ts h.2 u hu
end

/-- Reading a well-formed type expression. -/
theorem reads_ev {t : RTy} (h : t.WF) : Ev fun n => Reads (nextType n) t := (good t h).mono fun _ h => h.1

end NS.Derive
