import Verif.Lemmas.JsonRefine3
/-! `deserialize_json` computes the reference decoder: all types. -/
namespace NS
variable {fl : FloatOps} {env : Env}

theorem Dec.bind_ne_ok {α β : Type} {d : Dec α} {f : α → Dec β} (h : ∀ a, d ≠ .ok a) (b : β) : d.bind f ≠ .ok b := by
  cases d with
  | ok a => exact absurd rfl (h a)
  | _ => simp [Dec.bind]

/-- Nothing is decoded from nothing. -/
theorem decode_none (env : Env) (fl : FloatOps) (n : Nat) (t : Ty) (v : Val) : decode env fl n t none ≠ .ok v := by
  induction n generalizing t v with
  | zero => simp [decode]
  | succ n ih =>
    cases t with
    | int k => unfold decode; simp only; split <;> simp
    | option t => exact Dec.bind_ne_ok (ih t) v
    | box t => exact Dec.bind_ne_ok (ih t) v
    | named i =>
      unfold decode; simp only
      split
      · simp [decNamed, Dec.bind]
      · rename_i ts tr _
        unfold decTupleStruct
        split
        · simp
        · exact Dec.bind_ne_ok (ih _) v
        · simp
        · simp [decTuple, Dec.bind]
      · simp [decEnum]
      · simp
    | proxied i =>
      unfold decode; simp only
      split
      · exact Dec.bind_ne_ok (ih _) v
      · simp
    | _ => simp [decode, decDur, decSeq, decMap, decTuple, Dec.bind]

theorem ReadsNone.err {α : Type} {rd : PM α} (h : ∀ st, (∃ l, IsFollow l ∧ st.tok = jtok l) → ∃ e s, rd st = .err e s) :
    ReadsNone fl rd .err := fun _ _ _ hf hp => h _ (hp.follow hf)

theorem Reads.congr {α : Type} {rd : PM α} {J d d'} (h : Reads fl rd J d) (e : d = d') : Reads fl rd J d' := e ▸ h

/-- A scalar lexeme is passed. -/
theorem JPos.scalar {st l rest tail} (h : JPos fl st (l :: rest) tail) (hf : Follow rest) :
    ∃ s, jNext fl st = .ok () s ∧ JPos fl s rest tail := h.next' hf.ne

theorem i64Range_spec (k : IntKind) (hs : k.signed = true) (st : PSt) :
    (∃ t : Num, st.tok = t.tok ∧ match decInt k t with
      | some i => ∃ v, i64Range k.lo k.hi st = .ok v st ∧ i = castInt k v
      | none => ∃ e, i64Range k.lo k.hi st = .err e st) ∨
    ((∀ t : Num, st.tok ≠ t.tok) ∧ ∃ e, i64Range k.lo k.hi st = .err e st) := by
  have hr : i64Range k.lo k.hi st = ((match st.tok with
    | .i64 v => if v < k.lo then errRange (showInt v ++ '<' :: showInt k.lo) else pure v
    | .u64 v => if u64AsI64 v > k.hi then errRange (showNat v ++ '>' :: showInt k.hi) else pure (u64AsI64 v)
    | _ => errToken "signed integer") : PM Int) st := rfl
  rw [hr]
  cases e : st.tok with
  | i64 v =>
    refine .inl ⟨.neg v, rfl, ?_⟩
    unfold decInt
    rw [hs]
    simp only
    by_cases hv : v < k.lo
    · rw [if_pos hv, if_pos hv]; exact ⟨_, rfl⟩
    · rw [if_neg hv, if_neg hv]; exact ⟨v, rfl, rfl⟩
  | u64 v =>
    refine .inl ⟨.nat v, rfl, ?_⟩
    unfold decInt
    rw [hs]
    simp only
    by_cases hv : u64AsI64 v > k.hi
    · rw [if_pos hv, if_pos hv]; exact ⟨_, rfl⟩
    · rw [if_neg hv, if_neg hv]; exact ⟨_, rfl, rfl⟩
  | f64 x =>
    refine .inl ⟨.float x, rfl, ?_⟩
    unfold decInt
    rw [hs]
    exact ⟨_, rfl⟩
  | _ => exact .inr ⟨fun t => by cases t <;> simp [Num.tok], _, rfl⟩

theorem u64Range_spec (k : IntKind) (hs : k.signed = false) (st : PSt) :
    (∃ t : Num, st.tok = t.tok ∧ match decInt k t with
      | some i => ∃ v : Nat, u64Range k.hi.toNat st = .ok v st ∧ i = castInt k v
      | none => ∃ e, u64Range k.hi.toNat st = .err e st) ∨
    ((∀ t : Num, st.tok ≠ t.tok) ∧ ∃ e, u64Range k.hi.toNat st = .err e st) := by
  have hr : u64Range k.hi.toNat st = ((match st.tok with
    | .u64 v => if v > k.hi.toNat then errRange (showNat v ++ '>' :: showNat k.hi.toNat) else pure v
    | _ => errToken "unsigned integer") : PM Nat) st := rfl
  rw [hr]
  cases e : st.tok with
  | i64 v =>
    refine .inl ⟨.neg v, rfl, ?_⟩
    unfold decInt
    rw [hs]
    exact ⟨_, rfl⟩
  | u64 v =>
    refine .inl ⟨.nat v, rfl, ?_⟩
    unfold decInt
    rw [hs]
    simp only
    by_cases hv : v > k.hi.toNat
    · rw [if_pos hv, if_pos hv]; exact ⟨_, rfl⟩
    · rw [if_neg hv, if_neg hv]; exact ⟨_, rfl, rfl⟩
  | f64 x =>
    refine .inl ⟨.float x, rfl, ?_⟩
    unfold decInt
    rw [hs]
    exact ⟨_, rfl⟩
  | _ => exact .inr ⟨fun t => by cases t <;> simp [Num.tok], _, rfl⟩

/-- A reader of numbers: decides on the token, then moves on. -/
theorem num_reads {rd : PM Val} {dec : Num → Option Val} {J : JTree}
    (h : ∀ st, (∃ t : Num, st.tok = t.tok ∧ match dec t with
        | some i => ∀ s, jNext fl st = .ok () s → rd st = .ok i s
        | none => ∃ e s, rd st = .err e s) ∨
      ((∀ t : Num, st.tok ≠ t.tok) ∧ ∃ e s, rd st = .err e s)) :
    Reads fl rd J (match J with
      | .num t => match dec t with
        | some i => .ok i
        | none => .err
      | _ => .err) ∧ ReadsNone fl rd .err := by
  constructor
  · intro st rest tail hf hp
    cases J with
    | num t =>
      have ht : st.tok = t.tok := ((JPos.facts hp).2.2.2.2.2 t).2 rfl
      rcases h st with ⟨t', ht', hd⟩ | ⟨hne, _⟩
      · have : t' = t := by
          have := ((JPos.facts hp).2.2.2.2.2 t').1 ht'
          injection this with this; exact this.symm
        subst this
        simp only [JTree.lexemes, List.cons_append, List.nil_append] at hp
        obtain ⟨s, e, hs⟩ := hp.scalar hf
        simp only
        cases hdt : dec t' with
        | none => rw [hdt] at hd; exact hd
        | some i => rw [hdt] at hd; exact ⟨s, hd s e, hs⟩
      · exact absurd ht (hne t)
    | _ =>
      rcases h st with ⟨t', ht', _⟩ | ⟨_, he⟩
      · have := ((JPos.facts hp).2.2.2.2.2 t').1 ht'
        simp at this
      · exact he
  · refine ReadsNone.err fun st ⟨l, hl, ht⟩ => ?_
    rcases h st with ⟨t', ht', _⟩ | ⟨_, he⟩
    · have := hl.ne
      rw [ht] at ht'
      cases t' with
      | nat n => exact absurd ht' (this.2.2.2.2.2.1 n)
      | neg n => exact absurd ht' (this.2.2.2.2.2.2.1 n)
      | float n => exact absurd ht' (this.2.2.2.2.2.2.2 n)
    · exact he

theorem deInt_reads (k : IntKind) (ht : k.textual = true) (J : JTree) :
    Reads fl (deInt (jNext fl) k) J (match J with
      | .num t => match (decInt k t).map Val.int with
        | some i => .ok i
        | none => .err
      | _ => .err) ∧ ReadsNone fl (deInt (jNext fl) k) .err := by
  refine num_reads fun st => ?_
  unfold deInt
  rw [if_neg (by simp [ht])]
  cases hs : k.signed with
  | true =>
    rw [if_pos rfl]
    rcases i64Range_spec k hs st with ⟨t, h1, h2⟩ | ⟨h1, e, h2⟩
    · refine .inl ⟨t, h1, ?_⟩
      cases hd : decInt k t with
      | none => rw [hd] at h2; obtain ⟨e, he⟩ := h2; exact ⟨e, st, M.bind_err he⟩
      | some i =>
        rw [hd] at h2; obtain ⟨v, hv, rfl⟩ := h2
        intro s hn
        show (i64Range k.lo k.hi >>= fun v => jNext fl >>= fun _ => (pure (.int (castInt k v)) : PM Val)) st = _
        rw [M.bind_ok hv, M.bind_ok hn]; rfl
    · exact .inr ⟨h1, e, st, M.bind_err h2⟩
  | false =>
    rw [if_neg (by simp)]
    rcases u64Range_spec k hs st with ⟨t, h1, h2⟩ | ⟨h1, e, h2⟩
    · refine .inl ⟨t, h1, ?_⟩
      cases hd : decInt k t with
      | none => rw [hd] at h2; obtain ⟨e, he⟩ := h2; exact ⟨e, st, M.bind_err he⟩
      | some i =>
        rw [hd] at h2; obtain ⟨v, hv, rfl⟩ := h2
        intro s hn
        show (u64Range k.hi.toNat >>= fun v => jNext fl >>= fun _ => (pure (.int (castInt k v)) : PM Val)) st = _
        rw [M.bind_ok hv, M.bind_ok hn]; rfl
    · exact .inr ⟨h1, e, st, M.bind_err h2⟩

theorem asF64_spec (st : PSt) :
    (∃ t : Num, st.tok = t.tok ∧ asF64 fl st = .ok (decFloat fl t) st) ∨
    ((∀ t : Num, st.tok ≠ t.tok) ∧ ∃ e, asF64 fl st = .err e st) := by
  have hr : asF64 fl st = ((match st.tok with
    | .i64 v => pure (fl.ofI64 v)
    | .u64 v => pure (fl.ofU64 v)
    | .f64 x => pure x
    | _ => errToken "floating point") : PM (BitVec 64)) st := rfl
  rw [hr]
  cases e : st.tok with
  | i64 v => exact .inl ⟨.neg v, rfl, rfl⟩
  | u64 v => exact .inl ⟨.nat v, rfl, rfl⟩
  | f64 v => exact .inl ⟨.float v, rfl, rfl⟩
  | _ => exact .inr ⟨fun t => by cases t <;> simp [Num.tok], _, rfl⟩

theorem deFloat_reads (g : BitVec 64 → Val) (J : JTree) :
    Reads fl (asF64 fl >>= fun x => jNext fl >>= fun _ => (pure (g x) : PM Val)) J (match J with
      | .num t => match (some (g (decFloat fl t)) : Option Val) with
        | some i => .ok i
        | none => .err
      | _ => .err) ∧ ReadsNone fl (asF64 fl >>= fun x => jNext fl >>= fun _ => (pure (g x) : PM Val)) .err := by
  refine num_reads (dec := fun t => some (g (decFloat fl t))) fun st => ?_
  rcases asF64_spec (fl := fl) st with ⟨t, h1, h2⟩ | ⟨h1, e, h2⟩
  · refine .inl ⟨t, h1, ?_⟩
    intro s hn
    rw [M.bind_ok h2, M.bind_ok hn]; rfl
  · exact .inr ⟨h1, e, st, M.bind_err h2⟩

/-- `d` where `rd` is tried after a test for `null`. -/
theorem null_reads {rd : PM Val} {nul : PM Val} {v : Val} (hnul : ∀ st, nul st = .ok v st) {k : Val → PM Val}
    {d d' : Dec Val} {J : JTree} (h : Reads fl (rd >>= k) J d)
    (hd1 : J = .null → d' = .ok v) (hd2 : J ≠ .null → d' = d) :
    Reads fl (M.get >>= fun st => if st.tok = .null then (jNext fl >>= fun _ => nul) else (rd >>= k)) J d' := by
  intro st rest tail hf hp
  show Agree ((if st.tok = .null then (jNext fl >>= fun _ => nul) else (rd >>= k)) st) _ _
  have hf2 := (JPos.facts hp).2.1
  by_cases hJ : J = .null
  · rw [if_pos (hf2.2 hJ), hd1 hJ]
    subst hJ
    simp only [JTree.lexemes, List.cons_append, List.nil_append] at hp
    obtain ⟨s, e, hs⟩ := hp.scalar hf
    exact Agree.step e ⟨s, hnul s, hs⟩
  · rw [if_neg (fun e => hJ (hf2.1 e)), hd2 hJ]
    exact h st rest tail hf hp

theorem null_readsNone {rd : PM Val} {nul : PM Val} {k : Val → PM Val} {d : Dec Val} (h : ReadsNone fl (rd >>= k) d) :
    ReadsNone fl (M.get >>= fun st => if st.tok = .null then (jNext fl >>= fun _ => nul) else (rd >>= k)) d := by
  intro st rest tail hf hp
  show Agree ((if st.tok = .null then (jNext fl >>= fun _ => nul) else (rd >>= k)) st) _ _
  obtain ⟨l, hl, e⟩ := hp.follow hf
  rw [if_neg (by rw [e]; exact hl.ne.2.2.2.1)]
  exact h st rest tail hf hp

theorem Reads.bind {α β : Type} {rd : PM α} {J d} {k : α → PM β} {g : α → Dec β} (h : Reads fl rd J d)
    (hk : ∀ a st, Agree (k a st) (g a) (fun s => s = st)) : Reads fl (rd >>= k) J (d.bind g) :=
  fun st rest tail hf hp => (h st rest tail hf hp).bind fun a s hs => (hk a s).mono fun s' e => by rw [e]; exact hs

theorem ReadsNone.bind {α β : Type} {rd : PM α} {d} {k : α → PM β} {g : α → Dec β} (h : ReadsNone fl rd d)
    (hk : ∀ a, d ≠ .ok a) : ReadsNone fl (rd >>= k) (d.bind g) :=
  fun st rest tail hf hp => by
    have := h st rest tail hf hp
    cases d with
    | ok a => exact absurd rfl (hk a)
    | err => exact Agree.fail this
    | panic => exact M.bind_panic this
    | oof => trivial

theorem epochAt_agree (s n : Nat) (st : PSt) :
    Agree (epochAt (.dur s n) st) (if s < 2 ^ 63 then .ok (.time s n) else .panic) (fun s => s = st) := by
  unfold epochAt
  simp only
  split
  · exact ⟨st, rfl, rfl⟩
  · rfl

theorem deDur_readsAll {n : Nat} {J : JTree} (hn : J.lexemes.length ≤ n) :
    Reads fl (deDur (jNext fl) n) J ((decDur (some J)).bind fun d => .ok (.dur d.1 d.2)) := by
  cases J with
  | obj ms tr =>
    have := obj_count (ms := ms) (tr := tr)
    exact deDur_reads (by omega)
  | _ =>
    intro st rest tail hf hp
    exact deDur_err (by rw [Ne, (JPos.facts hp).2.2.2.1]; simp)

theorem deDur_readsNone {n : Nat} : ReadsNone fl (deDur (jNext fl) n) .err :=
  ReadsNone.err fun _ ⟨_, hl, ht⟩ => deDur_err (by rw [ht]; exact hl.ne.2.1)

/-- The claim for one type and both fuels. -/
def ReadsAt (env : Env) (fl : FloatOps) (n : Nat) (t : Ty) : Prop :=
  (∀ J m, n + J.lexemes.length ≤ m → Reads fl (deJson env fl m t) J (decode env fl n t (some J))) ∧
  (∀ m, n ≤ m → ReadsNone fl (deJson env fl m t) (decode env fl n t none))

theorem seq_readsAt {n : Nat} {t : Ty} (ih : ReadsAt env fl n t) (add : List Val → Val → List Val) (J : JTree) {m : Nat}
    (hm : n + J.lexemes.length ≤ m) :
    Reads fl (deSeq (jNext fl) m (deJson env fl m t) add) J
      (decSeq (fun acc x => (decode env fl n t (some x)).bind fun v => .ok (add acc v)) (some J)) := by
  cases J with
  | arr xs tr =>
    have := arr_count (xs := xs) (tr := tr)
    exact deSeq_reads (D := fun x => decode env fl n t (some x)) (fun x hx => ih.1 x m (by have := arr_mem_len (tr := tr) hx; omega)) (by omega)
  | _ =>
    intro st rest tail hf hp
    refine Agree.fail ?_
    obtain ⟨e, he⟩ := expectTok_err (nx := jNext fl) (what := "[") (st := st) (t := .blockOpen)
      (by rw [Ne, (JPos.facts hp).2.2.1]; simp)
    exact ⟨e, st, he⟩

theorem map_readsAt {n : Nat} {k t : Ty} (ihk : ReadsAt env fl n k) (ih : ReadsAt env fl n t) (add : List Val → Val → List Val)
    (J : JTree) {m : Nat} (hm : n + J.lexemes.length ≤ m) :
    Reads fl (deMap (jNext fl) m (deJson env fl m k) (deJson env fl m t) add) J
      (decMap (fun acc x => (decode env fl n k (some x.1)).bind fun a => (decode env fl n t (some x.2)).bind fun b =>
        .ok (add acc (.entry a b))) (some J)) := by
  cases J with
  | obj ms tr =>
    have := obj_count (ms := ms) (tr := tr)
    exact deMap_reads (D := fun x => decode env fl n k (some x)) (E := fun x => decode env fl n t (some x))
      (fun x hx => ihk.1 _ m (by have := obj_mem_len (tr := tr) hx; omega))
      (fun x hx => ih.1 _ m (by have := obj_mem_len (tr := tr) hx; omega)) (by omega)
  | _ =>
    intro st rest tail hf hp
    refine Agree.fail ?_
    obtain ⟨e, he⟩ := expectTok_err (nx := jNext fl) (what := "{") (st := st) (t := .curlyOpen)
      (by rw [Ne, (JPos.facts hp).2.2.2.1]; simp)
    exact ⟨e, st, he⟩

theorem follow_ne_block : ∀ l, IsFollow l → jtok l ≠ .blockOpen := fun _ h => h.ne.1
theorem follow_ne_curly : ∀ l, IsFollow l → jtok l ≠ .curlyOpen := fun _ h => h.ne.2.1

theorem deJson_readsAt (env : Env) (fl : FloatOps) (n : Nat) (t : Ty) : ReadsAt env fl n t := by
  induction n generalizing t with
  | zero => exact ⟨fun J m _ st rest tail _ _ => trivial, fun m _ st rest tail _ _ => trivial⟩
  | succ n ih =>
    have hno := decode_none env fl n
    have hitems : ∀ {J : JTree} {m}, n + J.lexemes.length ≤ m → ∀ t xs tr, J = .arr xs tr → ∀ x ∈ xs,
        Reads fl (deJson env fl m t) x (decode env fl n t (some x)) := by
      intro J m hm t xs tr e x hx
      subst e
      have := arr_mem_len (tr := tr) hx
      exact (ih t).1 x m (by omega)
    have hmem : ∀ {J : JTree} {m}, n + J.lexemes.length ≤ m → ∀ ms tr, J = .obj ms tr → ∀ x ∈ ms, ∀ t,
        Reads fl (deJson env fl m t) x.2 (decode env fl n t (some x.2)) := by
      intro J m hm ms tr e x hx t
      subst e
      have := obj_mem_len (tr := tr) hx
      exact (ih t).1 x.2 m (by omega)
    have htup : ∀ {J : JTree} {m}, n + J.lexemes.length ≤ m → ∀ ts,
        Reads fl (deTuple (blockOpen (jNext fl)) (blockClose (jNext fl)) (eatCommaBlock (jNext fl)) (deJson env fl m) ts) J
          ((decTuple (decode env fl n) ts (some J)).bind fun vs => .ok (.seq vs)) := by
      intro J m hm ts
      unfold deTuple
      rw [deTysComma_by]
      exact tuple_reads commaAfter_elem ts _ J (fun t _ xs tr e x hx => hitems hm t xs tr e x hx)
        (fun t _ => (ih t).2 m (by omega)) (fun t _ => hno t)
    have htupN : ∀ {m : Nat} ts, ReadsNone fl (deTuple (blockOpen (jNext fl)) (blockClose (jNext fl)) (eatCommaBlock (jNext fl)) (deJson env fl m) ts)
        .err := fun ts => expect_none follow_ne_block
    refine ⟨?_, ?_⟩
    · intro J m hm
      obtain ⟨m, rfl⟩ : ∃ k, m = k + 1 := ⟨m - 1, by omega⟩
      replace hm : n + J.lexemes.length ≤ m := by omega
      cases t with
      | unit =>
        intro st rest tail hf hp
        cases J with
        | null =>
          simp only [JTree.lexemes, List.cons_append, List.nil_append] at hp
          obtain ⟨s, e, hs⟩ := hp.scalar hf
          exact Agree.step ((expectTok_ok (by exact hp.tok)).trans e) ⟨s, rfl, hs⟩
        | _ =>
          refine Agree.fail ?_
          obtain ⟨e, he⟩ := expectTok_err (nx := jNext fl) (what := "null") (st := st) (t := .null)
            (by rw [Ne, (JPos.facts hp).2.1]; simp)
          exact ⟨e, st, he⟩
      | bool =>
        intro st rest tail hf hp
        have hr : deJson env fl (m + 1) .bool st = ((match st.tok with
          | .bool b => (jNext fl >>= fun _ => pure (.bool b))
          | _ => errToken "boolean") : PM Val) st := rfl
        rw [hr]
        by_cases hb : ∃ b, J = .bool b
        · obtain ⟨b, rfl⟩ := hb
          have h' : JPos fl st (.word (if b then ['t', 'r', 'u', 'e'] else ['f', 'a', 'l', 's', 'e']) :: rest) tail := by
            cases b <;> simpa [JTree.lexemes] using hp
          obtain ⟨s, e, hs⟩ := h'.scalar hf
          have ht : st.tok = .bool b := ((JPos.facts hp).2.2.2.2.1 b).2 rfl
          rw [ht]
          exact Agree.step e ⟨s, rfl, hs⟩
        · have hd : decode env fl (n + 1) .bool (some J) = .err := by
            cases J with
            | bool b => exact absurd ⟨b, rfl⟩ hb
            | _ => rfl
          rw [hd]
          cases e : st.tok with
          | bool b => exact absurd ⟨b, ((JPos.facts hp).2.2.2.2.1 b).1 e⟩ hb
          | _ => exact ⟨_, _, rfl⟩
      | int k =>
        cases ht : k.textual with
        | false =>
          refine Reads.congr (d := .oof) (fun _ _ _ _ _ => trivial) ?_
          simp [decode, ht]
        | true =>
          refine (deInt_reads k ht J).1.congr ?_
          cases J <;> simp only [decode, ht] <;> first | rfl | skip
          rename_i t
          simp only [Bool.true_eq_false, if_false]
          cases decInt k t <;> rfl
      | f32 => exact (deFloat_reads (fun x => .f32 (fl.to32 x)) J).1.congr (by cases J <;> rfl)
      | f64 => exact (deFloat_reads (fun x => .f64 x) J).1.congr (by cases J <;> rfl)
      | str =>
        intro st rest tail hf hp
        cases J with
        | str s =>
          simp only [JTree.lexemes, List.cons_append, List.nil_append] at hp
          obtain ⟨s', e, hs⟩ := deStr_ok hp hf.ne
          exact Agree.step e ⟨s', rfl, hs⟩
        | _ => exact Agree.fail (deStr_err (by rw [Ne, (JPos.facts hp).1]; simp))
      | dur => exact deDur_readsAll (by omega)
      | time =>
        refine null_reads (v := .time 0 0) (fun st => rfl) (k := epochAt)
          (d := ((decDur (some J)).bind fun d => .ok (Val.dur d.1 d.2)).bind fun v => match v with
            | Val.dur s n => if s < 2 ^ 63 then .ok (.time s n) else .panic
            | _ => .ok (.time 0 0)) ?_ ?_ ?_
        · refine Reads.bind (deDur_readsAll (by omega)) fun a st => ?_
          cases a with
          | dur s n => exact epochAt_agree s n st
          | _ => exact ⟨st, rfl, rfl⟩
        · rintro rfl; rfl
        · intro hJ
          rw [Dec.bind_assoc]
          cases J with
          | null => exact absurd rfl hJ
          | _ => rfl
      | option t =>
        refine null_reads (v := .none) (fun st => rfl) (k := fun v => pure (.some v))
          (d := (decode env fl n t (some J)).bind fun v => .ok (.some v))
          (((ih t).1 J m hm).bind fun a st => ⟨st, rfl, rfl⟩) (by rintro rfl; rfl) ?_
        intro hJ
        cases J with
        | null => exact absurd rfl hJ
        | _ => rfl
      | vec t => exact seq_readsAt (ih t) _ J hm
      | linked t => exact seq_readsAt (ih t) _ J hm
      | hset t => exact seq_readsAt (ih t) _ J hm
      | bset t => exact seq_readsAt (ih t) _ J hm
      | array t len =>
        show Reads fl (blockOpen (jNext fl) >>= fun _ => repeatM (thenEat (deJson env fl m t) (eatCommaBlock (jNext fl))) len >>= fun vs =>
          blockClose (jNext fl) >>= fun _ => (pure (.seq vs) : PM Val)) J _
        rw [repeatM_by (deJson env fl m)]
        exact tuple_reads thenEat_elem _ _ J (fun t _ xs tr e x hx => hitems hm t xs tr e x hx)
          (fun t _ => (ih t).2 m (by omega)) (fun t _ => hno t)
      | pair a b => exact htup hm [a, b]
      | triple a b c => exact htup hm [a, b, c]
      | quad a b c d => exact htup hm [a, b, c, d]
      | hmap k t => exact map_readsAt (ih k) (ih t) _ J hm
      | bmap k t => exact map_readsAt (ih k) (ih t) _ J hm
      | box t => exact ((ih t).1 J m hm).bind fun a st => ⟨st, rfl, rfl⟩
      | named i =>
        unfold deJson decode
        simp only
        cases env.defs[i]? with
        | none => exact fun _ _ _ _ _ => trivial
        | some d =>
          cases d with
          | struct fs cd nul =>
            exact (deJsonNamed_reads (hmem hm) (by omega)).bind fun a st => ⟨st, rfl, rfl⟩
          | tuple ts tr =>
            exact deJsonTupleStruct_reads (fun t => (ih t).1 J m hm) (hitems hm) (fun t => (ih t).2 m (by omega)) hno
          | «enum» vars =>
            refine deJsonEnum_reads ?_ ?_ (fun t => (ih t).2 m (by omega)) hno (by omega)
            · intro ms tr e x hx ms' tr' e' x' hx' t
              subst e
              have := obj_mem_len (tr := tr) hx
              exact hmem (J := x.2) (by omega) ms' tr' e' x' hx' t
            · intro ms tr e x hx t xs tr' e' x' hx'
              subst e
              have := obj_mem_len (tr := tr) hx
              exact hitems (J := x.2) (by omega) t xs tr' e' x' hx'
      | proxied i =>
        unfold deJson decode
        simp only
        cases env.proxies[i]? with
        | none => exact fun _ _ _ _ _ => trivial
        | some px => exact ((ih px.ty).1 J m hm).bind fun a st => ⟨st, rfl, rfl⟩
    · intro m hm
      obtain ⟨m, rfl⟩ : ∃ k, m = k + 1 := ⟨m - 1, by omega⟩
      replace hm : n ≤ m := by omega
      cases t with
      | unit => exact expect_none fun l hl => hl.ne.2.2.2.1
      | bool =>
        refine ReadsNone.err fun st ⟨l, hl, ht⟩ => ?_
        have hr : deJson env fl (m + 1) .bool st = ((match st.tok with
          | .bool b => (jNext fl >>= fun _ => pure (.bool b))
          | _ => errToken "boolean") : PM Val) st := rfl
        rw [hr]
        cases e : st.tok with
        | bool b => exact absurd (ht ▸ e) (hl.ne.2.2.2.2.1 b)
        | _ => exact ⟨_, _, rfl⟩
      | int k =>
        cases ht : k.textual with
        | false =>
          have : decode env fl (n + 1) (.int k) none = .oof := by simp [decode, ht]
          rw [this]
          exact fun _ _ _ _ _ => trivial
        | true =>
          have : decode env fl (n + 1) (.int k) none = .err := by simp [decode, ht]
          rw [this]
          exact (deInt_reads k ht .null).2
      | f32 => exact (deFloat_reads (fun x => .f32 (fl.to32 x)) .null).2
      | f64 => exact (deFloat_reads (fun x => .f64 x) .null).2
      | str =>
        refine ReadsNone.err fun st ⟨l, hl, ht⟩ => ?_
        obtain ⟨e, s, h⟩ := deStr_err (fl := fl) (st := st) (by rw [ht]; exact hl.ne.2.2.1)
        exact ⟨e, s, M.bind_err h⟩
      | dur => exact deDur_readsNone
      | time => exact null_readsNone (k := epochAt) (d := .err) (ReadsNone.bind (g := fun _ => .err) deDur_readsNone (by simp))
      | option t => exact null_readsNone (((ih t).2 m hm).bind (hno t))
      | vec t => exact expect_none follow_ne_block
      | linked t => exact expect_none follow_ne_block
      | hset t => exact expect_none follow_ne_block
      | bset t => exact expect_none follow_ne_block
      | array t len => exact expect_none follow_ne_block
      | pair a b => exact htupN _
      | triple a b c => exact htupN _
      | quad a b c d => exact htupN _
      | hmap k t => exact expect_none follow_ne_curly
      | bmap k t => exact expect_none follow_ne_curly
      | box t => exact ((ih t).2 m hm).bind (hno t)
      | named i =>
        unfold deJson decode
        simp only
        cases env.defs[i]? with
        | none => exact fun _ _ _ _ _ => trivial
        | some d =>
          cases d with
          | struct fs cd nul =>
            have : ReadsNone fl (deJsonNamed (jNext fl) m (deJson env fl m) cd fs) .err := expect_none follow_ne_curly
            exact this.bind (g := fun vs => .ok (.struct vs)) (by simp)
          | tuple ts tr =>
            cases ts with
            | nil => exact expect_none follow_ne_curly
            | cons t ts =>
              cases ts with
              | nil =>
                cases tr with
                | true => exact ((ih t).2 m hm).bind (hno t)
                | false => exact expect_none follow_ne_block
              | cons t' ts => exact expect_none follow_ne_block
          | «enum» vars =>
            refine ReadsNone.err fun st ⟨l, hl, ht⟩ => ?_
            have h1 : st.tok ≠ .curlyOpen := by rw [ht]; exact hl.ne.2.1
            have h2 : st.tok ≠ .str := by rw [ht]; exact hl.ne.2.2.1
            refine ⟨⟨st.cur.line, st.cur.col, .unexpectedToken st.tok "String or {".toList⟩, st, ?_⟩
            unfold deJsonEnum
            simp only [M.bind_def, M.get, h1, h2, false_and, if_false]
            rfl
      | proxied i =>
        unfold deJson decode
        simp only
        cases env.proxies[i]? with
        | none => exact fun _ _ _ _ _ => trivial
        | some px => exact ((ih px.ty).2 m hm).bind (hno px.ty)

/-- On every text of the JSON value `J` the reader computes the reference decoder. -/
theorem deserializeJson_agree {J : JTree} {txt : List Char} (h : JText fl J txt) (t : Ty) (n m : Nat)
    (hm : n + J.lexemes.length ≤ m) :
    Agree (deserializeJson env fl m t txt) (decode env fl n t (some J)) (fun s => s.tok = .eof) := by
  have hs := JFull.stream h
  have hne : J.lexemes ++ [.eof] ≠ [] := J.lexemes_ne _
  obtain ⟨s1, e1, h1⟩ : ∃ s1, jNext fl (initSt jcol txt) = .ok () s1 ∧ JPos fl s1 (J.lexemes ++ [.eof]) [] := by
    obtain ⟨l, ls, el⟩ : ∃ l ls, J.lexemes ++ [.eof] = l :: ls := by
      cases e : J.lexemes ++ [Lexeme.eof] with
      | nil => exact absurd e hne
      | cons l ls => exact ⟨l, ls, rfl⟩
    rw [el] at hs ⊢
    exact hs.start (by cases txt <;> simp [initSt, Cur.next]; split <;> rfl)
  refine Agree.step e1 ?_
  refine ((deJson_readsAt env fl n t).1 J m hm s1 [.eof] [] ⟨_, _, rfl, by simp [IsFollow]⟩ h1).mono ?_
  intro s hs
  exact hs.tok

end NS
