import Verif.Lemmas.JsonRefine
/-! `deserialize_json` computes the reference decoder, continued: tuples, structs, enums. -/
namespace NS
variable {fl : FloatOps}

/-! ## Sizes -/

theorem JTree.lexemes_pos (J : JTree) : 1 ≤ J.lexemes.length := by
  obtain ⟨l, ls, e, _⟩ := J.lexemes_start; simp [e]

theorem commaLexemes_mem {tr : Bool} {xs : List (List Lexeme)} {x} (h : x ∈ xs) :
    x.length ≤ (commaLexemes tr xs).length := by
  induction xs with
  | nil => simp at h
  | cons y ys ih =>
    obtain ⟨sep, _, _, hl, _⟩ := commaLexemes_cons tr y ys []
    rcases List.mem_cons.1 h with rfl | h
    · omega
    · have := ih h; omega

theorem commaLexemes_count {tr : Bool} {xs : List (List Lexeme)} (h : ∀ x ∈ xs, 1 ≤ x.length) :
    xs.length ≤ (commaLexemes tr xs).length := by
  induction xs with
  | nil => simp
  | cons y ys ih =>
    obtain ⟨sep, _, _, hl, _⟩ := commaLexemes_cons tr y ys []
    have := ih fun x hx => h x (List.mem_cons_of_mem _ hx)
    have := h y (List.mem_cons_self ..)
    simp only [List.length_cons]; omega

theorem arr_len {xs tr} : (JTree.arr xs tr).lexemes.length = (commaLexemes tr (xs.map JTree.lexemes)).length + 2 := by
  rw [JTree.lexemes_arr]; simp

theorem obj_len {ms tr} : (JTree.obj ms tr).lexemes.length =
    (commaLexemes tr (ms.map fun m => m.1.lexemes ++ .punct .colon :: m.2.lexemes)).length + 2 := by
  rw [JTree.lexemes_obj]; simp

theorem arr_mem_len {xs tr x} (h : x ∈ xs) : x.lexemes.length + 2 ≤ (JTree.arr xs tr).lexemes.length := by
  rw [arr_len]
  have := commaLexemes_mem (tr := tr) (List.mem_map_of_mem (f := JTree.lexemes) h); omega

theorem arr_count {xs tr} : xs.length + 2 ≤ (JTree.arr xs tr).lexemes.length := by
  rw [arr_len]
  have := commaLexemes_count (tr := tr) (xs := xs.map JTree.lexemes) (by
    intro x hx; obtain ⟨y, _, rfl⟩ := List.mem_map.1 hx; exact y.lexemes_pos)
  simp at this; omega

theorem obj_mem_len {ms tr} {m : JTree × JTree} (h : m ∈ ms) :
    m.1.lexemes.length + m.2.lexemes.length + 3 ≤ (JTree.obj ms tr).lexemes.length := by
  rw [obj_len]
  have := commaLexemes_mem (tr := tr)
    (List.mem_map_of_mem (f := fun m : JTree × JTree => m.1.lexemes ++ .punct .colon :: m.2.lexemes) h)
  simp only [List.length_append, List.length_cons] at this; omega

theorem obj_count {ms tr} : ms.length + 2 ≤ (JTree.obj ms tr).lexemes.length := by
  rw [obj_len]
  have := commaLexemes_count (tr := tr) (xs := ms.map fun m => m.1.lexemes ++ .punct .colon :: m.2.lexemes) (by
    intro x hx; obtain ⟨y, _, rfl⟩ := List.mem_map.1 hx; simp; omega)
  simp only [List.length_map] at this; omega

/-! ## Tuples -/

/-- Element and separator, whichever of the two ways it is read. -/
def ElemLike (fl : FloatOps) (el : PM Val → PM Val) : Prop :=
  ∀ (x : PM Val) (st : PSt) (d : Dec Val) (Q Q' : PSt → Prop), Agree (x st) d Q →
    (∀ a, d = .ok a → ∀ s, Q s → ∃ s', eatCommaBlock (jNext fl) s = .ok () s' ∧ Q' s') →
    Agree (el x st) d Q'

theorem thenEat_elem : ElemLike fl (thenEat · (eatCommaBlock (jNext fl))) := by
  intro x st d Q Q' h he
  cases d with
  | ok a =>
    obtain ⟨s, e, q⟩ := h
    obtain ⟨s', e', q'⟩ := he a rfl s q
    exact ⟨s', by show (x >>= fun v => eatCommaBlock (jNext fl) >>= fun _ => pure v) st = _
                  rw [M.bind_ok e, M.bind_ok e']; rfl, q'⟩
  | err => obtain ⟨e, s, h⟩ := h; exact ⟨e, s, M.bind_err h⟩
  | panic => exact M.bind_panic h
  | oof => trivial

theorem commaAfter_elem : ElemLike fl (commaAfter · (eatCommaBlock (jNext fl))) := by
  intro x st d Q Q' h he
  cases d with
  | ok a =>
    obtain ⟨s, e, q⟩ := h
    obtain ⟨s', e', q'⟩ := he a rfl s q
    refine ⟨s', ?_, q'⟩
    simp only [commaAfter, e]
    rw [M.bind_ok e']; rfl
  | err =>
    obtain ⟨e, s, h⟩ := h
    show ∃ e s, commaAfter x (eatCommaBlock (jNext fl)) st = .err e s
    simp only [commaAfter, h]
    rcases eatComma_tame (jNext_tame fl) .blockClose ", or ]" s with ⟨s', h'⟩ | ⟨e', s', h'⟩
    · exact ⟨e, s', by rw [eatCommaBlock, h']⟩
    · exact ⟨e', s', by rw [eatCommaBlock, h']⟩
  | panic =>
    show commaAfter x (eatCommaBlock (jNext fl)) st = .panic
    have h : x st = .panic := h
    simp only [commaAfter, h]
  | oof => trivial

/-- Both component readers. -/
def deTysBy (elem : Ty → PM Val) : List Ty → PM (List Val)
  | [] => pure []
  | t :: ts => do
    let a ← elem t
    let as ← deTysBy elem ts
    pure (a :: as)

theorem deTysEat_by (de : Ty → PM Val) (eat) (ts) : deTysEat de eat ts = deTysBy (fun t => thenEat (de t) eat) ts := by
  induction ts with
  | nil => rfl
  | cons t ts ih => simp only [deTysEat, deTysBy, ih]

theorem deTysComma_by (de : Ty → PM Val) (eat) (ts) :
    deTysComma de eat ts = deTysBy (fun t => commaAfter (de t) eat) ts := by
  induction ts with
  | nil => rfl
  | cons t ts ih => simp only [deTysComma, deTysBy, ih]

theorem repeatM_by (de : Ty → PM Val) (eat) (t : Ty) (n : Nat) :
    repeatM (thenEat (de t) eat) n = deTysBy (fun t => thenEat (de t) eat) (List.replicate n t) := by
  induction n with
  | zero => rfl
  | succ n ih => simp only [repeatM, List.replicate_succ, deTysBy, ih]

theorem deTysBy_agree {de : Ty → PM Val} {dec : Ty → Option JTree → Dec Val} {el : PM Val → PM Val}
    (hel : ElemLike fl el) {α : Type} {rest tail} (hf : Follow rest) {trail : Bool} (ts : List Ty) (xs : List JTree)
    (hsome : ∀ t ∈ ts, ∀ x ∈ xs, Reads fl (de t) x (dec t (some x)))
    (hnone : ∀ t ∈ ts, ReadsNone fl (de t) (dec t none)) (hno : ∀ t ∈ ts, ∀ v, dec t none ≠ .ok v)
    (g : List Val → α) (st : PSt)
    (h : JPos fl st (commaLexemes trail (xs.map JTree.lexemes) ++ .punct .blockClose :: rest) tail) :
    Agree ((deTysBy (fun t => el (de t)) ts >>= fun vs => blockClose (jNext fl) >>= fun _ => (pure (g vs) : PM α)) st)
      ((decTys dec ts xs).bind fun vs => .ok (g vs)) (fun s => JPos fl s rest tail) := by
  induction ts generalizing xs g st with
  | nil =>
    show Agree ((blockClose (jNext fl) >>= fun _ => (pure (g []) : PM α)) st) _ _
    cases xs with
    | nil =>
      obtain ⟨s2, e2, h2⟩ := h.next' hf.ne
      exact Agree.step ((expectTok_ok (by exact h.tok)).trans e2) ⟨s2, rfl, h2⟩
    | cons x xs =>
      obtain ⟨sep, e1, e2, _, _⟩ := commaLexemes_cons trail x.lexemes (xs.map JTree.lexemes) (.punct .blockClose :: rest)
      rw [List.map_cons, e1] at h
      obtain ⟨l, hl, ht⟩ := h.start
      refine Agree.fail ?_
      obtain ⟨e, he⟩ := expectTok_err (nx := jNext fl) (what := "]") (st := st) (t := .blockClose)
        (by rw [ht]; exact hl.ne.2.2.1)
      exact ⟨e, st, he⟩
  | cons t ts ih =>
    have hb : (deTysBy (fun t => el (de t)) (t :: ts) >>= fun vs => blockClose (jNext fl) >>= fun _ => (pure (g vs) : PM α)) =
        (el (de t) >>= fun a => deTysBy (fun t => el (de t)) ts >>= fun vs => blockClose (jNext fl) >>= fun _ =>
          (pure (g (a :: vs)) : PM α)) := by
      show ((el (de t) >>= fun a => deTysBy (fun t => el (de t)) ts >>= fun as => Pure.pure (a :: as)) >>= _) = _
      rw [M.bind_assoc]; congr 1; funext a; rw [M.bind_assoc]; rfl
    rw [hb]
    have hd : ∀ {α β γ : Type} (d : Dec α) (f : α → Dec β) (g : β → Dec γ),
      (d.bind f).bind g = d.bind fun a => (f a).bind g := by intro _ _ _ d f g; cases d <;> rfl
    cases xs with
    | nil =>
      rw [decTys, hd]
      refine Agree.bind (Q := fun _ => False) ?_ (fun _ _ h => h.elim)
      refine hel _ _ _ (fun _ => True) _ (hnone t (List.mem_cons_self ..) st _ tail ⟨_, _, rfl, by simp [IsFollow]⟩ h) ?_
      intro a ha
      exact absurd ha (hno t (List.mem_cons_self ..) a)
    | cons x xs =>
      obtain ⟨sep, e1, e2, _, _⟩ := commaLexemes_cons trail x.lexemes (xs.map JTree.lexemes) (.punct .blockClose :: rest)
      rw [List.map_cons, e1] at h
      rw [decTys, hd]
      refine Agree.bind (hel _ _ _ _ (fun s => JPos fl s (commaLexemes trail (xs.map JTree.lexemes) ++ .punct .blockClose :: rest) tail)
        (hsome t (List.mem_cons_self ..) x (List.mem_cons_self ..) st _ tail (follow_sep e2 (.inl rfl)) h) ?_) ?_
      · intro a _ s hs
        exact eat_sep hs e2 (by decide)
      · intro a s hs
        rw [hd]
        exact ih xs (fun t ht x hx => hsome t (List.mem_cons_of_mem _ ht) x (List.mem_cons_of_mem _ hx))
          (fun t ht => hnone t (List.mem_cons_of_mem _ ht)) (fun t ht => hno t (List.mem_cons_of_mem _ ht))
          (fun vs => g (a :: vs)) s hs

/-- Opening bracket, components, closing bracket. -/
theorem tuple_reads {de : Ty → PM Val} {dec : Ty → Option JTree → Dec Val} {el : PM Val → PM Val}
    (hel : ElemLike fl el) {α : Type} (ts : List Ty) (g : List Val → α) (J : JTree)
    (hsome : ∀ t ∈ ts, ∀ xs tr, J = .arr xs tr → ∀ x ∈ xs, Reads fl (de t) x (dec t (some x)))
    (hnone : ∀ t ∈ ts, ReadsNone fl (de t) (dec t none)) (hno : ∀ t ∈ ts, ∀ v, dec t none ≠ .ok v) :
    Reads fl (blockOpen (jNext fl) >>= fun _ => deTysBy (fun t => el (de t)) ts >>= fun vs =>
      blockClose (jNext fl) >>= fun _ => (pure (g vs) : PM α)) J ((decTuple dec ts (some J)).bind fun vs => .ok (g vs)) := by
  intro st rest tail hf h
  by_cases hJ : ∃ xs tr, J = .arr xs tr
  · obtain ⟨xs, tr, rfl⟩ := hJ
    rw [JTree.lexemes_arr] at h
    simp only [List.cons_append, List.append_assoc, List.nil_append] at h
    obtain ⟨s1, e1, h1⟩ := h.next' (by simp)
    refine Agree.step ((expectTok_ok (by exact h.tok)).trans e1) ?_
    exact deTysBy_agree hel hf ts xs (fun t ht x hx => hsome t ht xs tr rfl x hx) hnone hno g s1 h1
  · have : decTuple dec ts (some J) = .err := by
      unfold decTuple
      split
      · rename_i xs tr e; exact absurd ⟨xs, tr, by simpa using e⟩ hJ
      · rfl
    rw [this]
    refine Agree.fail ?_
    obtain ⟨e, he⟩ := expectTok_err (nx := jNext fl) (what := "[") (st := st) (t := .blockOpen)
      (by rw [Ne, (JPos.facts h).2.2.1]; exact hJ)
    exact ⟨e, st, he⟩

/-- Where no value starts, an expected token other than a follower fails. -/
theorem expect_none {α : Type} {t : Tok} {what} {f : Unit → PM α}
    (ht : ∀ l, IsFollow l → jtok l ≠ t) : ReadsNone fl (expectTok (jNext fl) t what >>= f) .err := by
  intro st rest tail hf h
  obtain ⟨l, hl, e⟩ := h.follow hf
  obtain ⟨e, he⟩ := expectTok_err (nx := jNext fl) (what := what) (st := st) (t := t) (by rw [e]; exact ht l hl)
  exact Agree.fail ⟨e, st, he⟩

/-! ## Skipping an unknown member -/

/-- The counting loop passes over `ls` and comes back to the same count. -/
def Skips (fl : FloatOps) (ls : List Lexeme) : Prop :=
  ∀ n st k rest tail, 1 ≤ k → rest ≠ [] → JPos fl st (ls ++ rest) tail →
    ∃ st', JPos fl st' rest tail ∧ wholeLoop (jNext fl) (n + ls.length) k st = wholeLoop (jNext fl) n k st'

theorem wholeLoop_step {n k st s a b} (h : jNext fl st = .ok () s)
    (ha : a = if st.tok = .blockOpen ∨ st.tok = .curlyOpen then k + 1 else k)
    (hb : b = if st.tok = .blockClose ∨ st.tok = .curlyClose then a - 1 else a) :
    wholeLoop (jNext fl) (n + 1) k st = if b = 0 then .ok () s else wholeLoop (jNext fl) n b s := by
  subst ha
  show ((jNext fl >>= fun _ => if (if st.tok = .blockClose ∨ st.tok = .curlyClose then
    (if st.tok = .blockOpen ∨ st.tok = .curlyOpen then k + 1 else k) - 1
    else (if st.tok = .blockOpen ∨ st.tok = .curlyOpen then k + 1 else k)) = 0 then (pure () : PM Unit) else wholeLoop (jNext fl) n _) st) = _
  rw [M.bind_ok h, ← hb]
  split <;> rfl

theorem Skips.nil : Skips fl [] := fun _ st _ _ _ _ _ h => ⟨st, h, rfl⟩

theorem Skips.append {a b} (ha : Skips fl a) (hb : Skips fl b) : Skips fl (a ++ b) := by
  intro n st k rest tail hk hr h
  rw [List.append_assoc] at h
  obtain ⟨s1, h1, e1⟩ := ha (n + b.length) st k _ tail hk (by simp [hr]) h
  obtain ⟨s2, h2, e2⟩ := hb n s1 k _ tail hk hr h1
  refine ⟨s2, h2, ?_⟩
  rw [← e2, ← e1, List.length_append]; congr 1; omega

theorem Skips.single {l} (h1 : jtok l ≠ .blockOpen) (h2 : jtok l ≠ .curlyOpen) (h3 : jtok l ≠ .blockClose)
    (h4 : jtok l ≠ .curlyClose) : Skips fl [l] := by
  intro n st k rest tail hk hr h
  obtain ⟨s, e, hs⟩ := h.next' hr
  refine ⟨s, hs, ?_⟩
  have ht : st.tok = jtok l := h.tok
  rw [List.length_singleton, wholeLoop_step (a := k) (b := k) e (by rw [if_neg (by simp [ht, h1, h2])])
    (by rw [if_neg (by simp [ht, h3, h4])]), if_neg (by omega)]

theorem Skips.comma {tr : Bool} {xs : List (List Lexeme)} (h : ∀ x ∈ xs, Skips fl x) : Skips fl (commaLexemes tr xs) := by
  induction xs with
  | nil => exact Skips.nil
  | cons x xs ih =>
    obtain ⟨sep, e1, e2, _, _⟩ := commaLexemes_cons tr x xs []
    simp only [List.append_nil] at e1
    rw [e1]
    refine (h x (List.mem_cons_self ..)).append (Skips.append ?_ (ih fun y hy => h y (List.mem_cons_of_mem _ hy)))
    rcases e2 with rfl | ⟨rfl, _, _⟩
    · exact Skips.single (by decide) (by decide) (by decide) (by decide)
    · exact Skips.nil

/-- A bracketed text. -/
theorem Skips.wrap {o c : Lexeme} {ls} (ho : jtok o = .blockOpen ∨ jtok o = .curlyOpen)
    (hc : jtok c = .blockClose ∨ jtok c = .curlyClose) (h : Skips fl ls) (n st k rest tail) (hk : 0 ≤ k) (hr : rest ≠ [])
    (hp : JPos fl st (o :: (ls ++ c :: rest)) tail) :
    ∃ st', JPos fl st' rest tail ∧
      wholeLoop (jNext fl) (n + (ls.length + 2)) k st = if k = 0 then .ok () st' else wholeLoop (jNext fl) n k st' := by
  obtain ⟨s1, e1, h1⟩ := hp.next' (by simp)
  obtain ⟨s2, h2, e2⟩ := h (n + 1) s1 (k + 1) (c :: rest) tail (by omega) (by simp) h1
  obtain ⟨s3, e3, h3⟩ := h2.next' hr
  refine ⟨s3, h3, ?_⟩
  have t1 : st.tok = jtok o := hp.tok
  have t2 : s2.tok = jtok c := h2.tok
  rw [show n + (ls.length + 2) = (n + 1 + ls.length) + 1 by omega,
    wholeLoop_step (a := k + 1) (b := k + 1) e1 (by rw [t1, if_pos ho])
      (by rw [t1, if_neg (by rcases ho with h | h <;> simp [h])]), if_neg (by omega), e2,
    wholeLoop_step (a := k + 1) (b := k) e3 (by rw [t2, if_neg (by rcases hc with h | h <;> simp [h])])
      (by rw [t2, if_pos hc]; omega)]

theorem JTree.skips (J : JTree) : Skips fl J.lexemes := by
  cases J with
  | null => rw [JTree.lexemes]; exact Skips.single (by decide) (by decide) (by decide) (by decide)
  | bool b =>
    cases b <;> rw [JTree.lexemes] <;> exact Skips.single (by decide) (by decide) (by decide) (by decide)
  | num t =>
    rw [JTree.lexemes]
    cases t <;> exact Skips.single (by simp [jtok, Num.tok]) (by simp [jtok, Num.tok]) (by simp [jtok, Num.tok]) (by simp [jtok, Num.tok])
  | str s => rw [JTree.lexemes]; exact Skips.single (by simp [jtok]) (by simp [jtok]) (by simp [jtok]) (by simp [jtok])
  | arr xs tr =>
    rw [JTree.lexemes_arr]
    have hin : Skips fl (commaLexemes tr (xs.map JTree.lexemes)) := Skips.comma (by
      intro x hx; obtain ⟨y, hy, rfl⟩ := List.mem_map.1 hx; exact y.skips)
    intro n st k rest tail hk hr h
    simp only [List.cons_append, List.append_assoc, List.nil_append] at h
    obtain ⟨s, h1, e⟩ := hin.wrap (.inl rfl) (.inl rfl) n st k rest tail (by omega) hr h
    refine ⟨s, h1, ?_⟩
    rw [if_neg (by omega)] at e
    simpa using e
  | obj ms tr =>
    rw [JTree.lexemes_obj]
    have hin : Skips fl (commaLexemes tr (ms.map fun m => m.1.lexemes ++ .punct .colon :: m.2.lexemes)) := Skips.comma (by
      intro x hx; obtain ⟨y, hy, rfl⟩ := List.mem_map.1 hx
      exact y.1.skips.append ((Skips.single (l := .punct .colon) (by decide) (by decide) (by decide) (by decide)).append y.2.skips))
    intro n st k rest tail hk hr h
    simp only [List.cons_append, List.append_assoc, List.nil_append] at h
    obtain ⟨s, h1, e⟩ := hin.wrap (.inr rfl) (.inr rfl) n st k rest tail (by omega) hr h
    refine ⟨s, h1, ?_⟩
    rw [if_neg (by omega)] at e
    simpa using e
termination_by sizeOf J
decreasing_by
  · have := List.sizeOf_lt_of_mem hy; simp; omega
  · have := List.sizeOf_lt_of_mem hy
    have h : sizeOf y = 1 + sizeOf y.1 + sizeOf y.2 := by cases y; rfl
    simp; omega
  · have := List.sizeOf_lt_of_mem hy
    have h : sizeOf y = 1 + sizeOf y.1 + sizeOf y.2 := by cases y; rfl
    simp; omega

theorem wholeField_reads {n : Nat} {J : JTree} (hn : J.lexemes.length ≤ n) :
    Reads fl (wholeField (jNext fl) n) J (.ok ()) := by
  intro st rest tail hf h
  have hw : wholeField (jNext fl) n st = ((match st.tok with
    | .f64 _ | .i64 _ | .str | .u64 _ | .bool _ | .null => jNext fl
    | .blockOpen | .curlyOpen => wholeLoop (jNext fl) n 0
    | _ => M.panic) : PM Unit) st := rfl
  rw [hw]
  have hb : ∀ xs : List (List Lexeme), (∀ x ∈ xs, Skips fl x) → ∀ (tr : Bool) (o c : Tok),
      (o = .blockOpen ∨ o = .curlyOpen) → (c = .blockClose ∨ c = .curlyClose) →
      (commaLexemes tr xs).length + 2 ≤ n →
      JPos fl st (.punct o :: (commaLexemes tr xs ++ .punct c :: rest)) tail →
      Agree (((match st.tok with
    | .f64 _ | .i64 _ | .str | .u64 _ | .bool _ | .null => jNext fl
    | .blockOpen | .curlyOpen => wholeLoop (jNext fl) n 0
    | _ => M.panic) : PM Unit) st) (.ok ()) (fun s => JPos fl s rest tail) := by
    intro xs hxs tr o c ho hc hn h
    have ht : st.tok = o := h.tok
    obtain ⟨s, h1, e⟩ := (Skips.comma (tr := tr) hxs).wrap (o := .punct o) (c := .punct c) ho hc
      (n - ((commaLexemes tr xs).length + 2)) st 0 rest tail (by omega) hf.ne h
    rw [Nat.sub_add_cancel hn] at e
    refine ⟨s, ?_, h1⟩
    rw [ht]
    rcases ho with rfl | rfl <;> exact e
  cases J with
  | null =>
    simp only [JTree.lexemes, List.cons_append, List.nil_append] at h
    obtain ⟨s, e, hs⟩ := h.next' hf.ne
    have ht : st.tok = .null := h.tok
    rw [ht]
    exact ⟨s, e, hs⟩
  | bool b =>
    have h' : JPos fl st (.word (if b then ['t', 'r', 'u', 'e'] else ['f', 'a', 'l', 's', 'e']) :: rest) tail := by
      cases b <;> simpa [JTree.lexemes] using h
    obtain ⟨s, e, hs⟩ := h'.next' hf.ne
    have ht : st.tok = .bool b := ((JPos.facts h).2.2.2.2.1 b).2 rfl
    rw [ht]
    exact ⟨s, e, hs⟩
  | num t =>
    simp only [JTree.lexemes, List.cons_append, List.nil_append] at h
    obtain ⟨s, e, hs⟩ := h.next' hf.ne
    have ht : st.tok = t.tok := h.tok
    rw [ht]
    cases t <;> exact ⟨s, e, hs⟩
  | str t =>
    simp only [JTree.lexemes, List.cons_append, List.nil_append] at h
    obtain ⟨s, e, hs⟩ := h.next' hf.ne
    have ht : st.tok = .str := h.tok
    rw [ht]
    exact ⟨s, e, hs⟩
  | arr xs tr =>
    rw [arr_len] at hn
    rw [JTree.lexemes_arr] at h
    simp only [List.cons_append, List.append_assoc, List.nil_append] at h
    exact hb _ (by intro x hx; obtain ⟨y, hy, rfl⟩ := List.mem_map.1 hx; exact y.skips) tr .blockOpen .blockClose
      (.inl rfl) (.inl rfl) hn h
  | obj ms tr =>
    rw [obj_len] at hn
    rw [JTree.lexemes_obj] at h
    simp only [List.cons_append, List.append_assoc, List.nil_append] at h
    exact hb _ (by
      intro x hx; obtain ⟨y, hy, rfl⟩ := List.mem_map.1 hx
      exact y.1.skips.append ((Skips.single (l := .punct .colon) (by decide) (by decide) (by decide) (by decide)).append y.2.skips))
      tr .curlyOpen .curlyClose (.inr rfl) (.inr rfl) hn h

end NS
