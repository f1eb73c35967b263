import Verif.Lemmas.DeriveType

/-! The derive macros' parser stops. -/

namespace NS.Derive
open NS

/-- `f`, run on `ts`, returns or panics; when it returns, what is left is an end of `us`. -/
def Run {α : Type} (f : DM α) (ts us : List TT) : Prop := f ts ≠ .oof ∧ ∀ a r, f ts = .ok a r → r <:+ us

theorem Run.bind {α β : Type} {f : DM α} {g : α → DM β} {ts us : List TT} (h : Run f ts us)
    (k : ∀ a r, f ts = .ok a r → r <:+ us → Run (g a) r us) : Run (f >>= g) ts us := by
  cases e : f ts with
  | ok a r =>
    have := k a r e (h.2 a r e)
    rw [Run, M.bind_ok e]
    exact this
  | err x s => exact x.elim
  | panic =>
    have : (f >>= g) ts = .panic := by rw [M.bind_def, e]
    rw [Run, this]; exact ⟨by simp, by simp⟩
  | oof => exact absurd e h.1

theorem Run.mono {α : Type} {f : DM α} {ts us vs : List TT} (h : Run f ts us) (hs : us <:+ vs) : Run f ts vs :=
  ⟨h.1, fun a r e => (h.2 a r e).trans hs⟩

theorem Run.ok {α : Type} {f : DM α} {ts us r : List TT} {a : α} (h : f ts = .ok a r) (hs : r <:+ us) : Run f ts us := by
  rw [Run, h]
  exact ⟨by simp, fun a' r' e => by injection e with _ e; subst e; exact hs⟩

theorem Run.pure {α : Type} {a : α} {ts us : List TT} (hs : ts <:+ us) : Run (pure a : DM α) ts us := Run.ok rfl hs

theorem Run.panic {α : Type} {ts us : List TT} : Run (M.panic : DM α) ts us := ⟨by simp [M.panic], by simp [M.panic]⟩

theorem Run.expect {α : Type} (o : Option α) {ts us : List TT} (hs : ts <:+ us) : Run (expect o) ts us := by
  cases o with
  | none => exact .panic
  | some a => exact .pure hs

theorem Run.assert (c : Bool) {ts us : List TT} (hs : ts <:+ us) : Run (assert c) ts us := by
  cases c with
  | false => exact .panic
  | true => exact .pure hs

/-- Continue after a step whose result is known. -/
theorem Run.step {α β : Type} {f : DM α} {g : α → DM β} {ts us r : List TT} {a : α} (e : f ts = .ok a r)
    (k : Run (g a) r us) : Run (f >>= g) ts us := by
  rw [Run, M.bind_ok e]; exact k

theorem Run.ite {α : Type} {c : Prop} [Decidable c] {f g : DM α} {ts us : List TT} (h1 : c → Run f ts us) (h2 : ¬c → Run g ts us) :
    Run (if c then f else g) ts us := by
  by_cases h : c
  · rw [if_pos h]; exact h1 h
  · rw [if_neg h]; exact h2 h

theorem suffix_size {r ts : List TT} (h : r <:+ ts) : sizeOf r ≤ sizeOf ts := by
  obtain ⟨p, rfl⟩ := h
  induction p with
  | nil => simp
  | cons x p ih => simp only [List.cons_append, List.cons.sizeOf_spec]; omega

theorem size_pos (ts : List TT) : 1 ≤ sizeOf ts := by
  cases ts <;> simp; omega

theorem exact_cases (c : Char) (ts : List TT) :
    (∃ r, ts = .punct c :: r ∧ nextExactPunct c ts = .ok true r) ∨ nextExactPunct c ts = .ok false ts := by
  rcases ts with _ | ⟨t, ts⟩
  · exact .inr rfl
  · cases t with
    | punct d =>
      by_cases h : d = c
      · subst h; exact .inl ⟨ts, rfl, by simp [nextExactPunct]⟩
      · exact .inr (by simp [nextExactPunct, h])
    | _ => exact .inr rfl

theorem punct_cases (ts : List TT) :
    (∃ c r, ts = .punct c :: r ∧ nextPunct ts = .ok (some c) r) ∨ (nextPunct ts = .ok none ts ∧ ∀ c r, ts ≠ .punct c :: r) := by
  rcases ts with _ | ⟨t, ts⟩
  · exact .inr ⟨rfl, by simp⟩
  · cases t with
    | punct d => exact .inl ⟨d, ts, rfl, rfl⟩
    | _ => exact .inr ⟨rfl, by simp⟩

theorem ident_cases (ts : List TT) :
    (∃ c r, ts = .ident c :: r ∧ nextIdent ts = .ok (some c) r) ∨ nextIdent ts = .ok none ts := by
  rcases ts with _ | ⟨t, ts⟩
  · exact .inr rfl
  · cases t with
    | ident d => exact .inl ⟨d, ts, rfl, rfl⟩
    | _ => exact .inr rfl

theorem group_cases (ts : List TT) :
    (∃ d g r, ts = .group d g :: r ∧ nextGroup ts = .ok (some (d, g)) r) ∨ nextGroup ts = .ok none ts := by
  rcases ts with _ | ⟨t, ts⟩
  · exact .inr rfl
  · cases t with
    | group d g => exact .inl ⟨d, g, ts, rfl, rfl⟩
    | _ => exact .inr rfl

/-- `next` and what it leaves. -/
theorem Run.next {ts us : List TT} (hs : ts.tail <:+ us) : Run next ts us := Run.ok rfl hs

theorem Run.lifetime {ts us : List TT} (hs : ts <:+ us) : Run nextLifetime ts us := by
  rcases ts with _ | ⟨t, ts⟩
  · exact .ok rfl hs
  · cases t with
    | punct c =>
      by_cases h : c = '\''
      · subst h
        rcases ts with _ | ⟨u, ts⟩
        · exact ⟨by simp [nextLifetime], by simp [nextLifetime]⟩
        · cases u with
          | ident s => exact .ok rfl (((List.suffix_cons _ _).trans (List.suffix_cons _ _)).trans hs)
          | _ => exact ⟨by simp [nextLifetime], by simp [nextLifetime]⟩
      · exact .ok (a := none) (by simp [nextLifetime, h]) hs
    | _ => exact .ok rfl hs

theorem Run.literal {ts us : List TT} (hs : ts <:+ us) : Run nextLiteral ts us := by
  rcases ts with _ | ⟨t, ts⟩
  · exact .ok rfl hs
  · cases t with
    | lit s =>
      have hs' := (List.suffix_cons (TT.lit s) ts).trans hs
      unfold Run nextLiteral
      simp only
      split
      · split
        · simp
        · exact ⟨by simp, fun a r e => by injection e with _ e; subst e; exact hs'⟩
      · exact ⟨by simp, fun a r e => by injection e with _ e; subst e; exact hs'⟩
    | _ => exact .ok rfl hs

theorem Run.onStream {α : Type} {p : DM α} {g ts us : List TT} (h : p g ≠ .oof) (hs : ts <:+ us) : Run (onStream g p) ts us := by
  unfold Run Derive.onStream
  cases e : p g with
  | ok a r => exact ⟨by simp, fun a r e => by injection e with _ e; subst e; exact hs⟩
  | err x s => exact x.elim
  | panic => simp
  | oof => exact absurd e h

/-- `ty` stops on everything smaller than `n`. -/
def TyEnds (n : Nat) (ty : DM (Option PType)) : Prop := ∀ ts, sizeOf ts < n → Run ty ts ts

theorem TyEnds.exp {n : Nat} {ty} (h : TyEnds n ty) {ts us : List TT} (hn : sizeOf ts < n) (hs : ts <:+ us) :
    Run (ty >>= expect) ts us :=
  .bind ((h ts hn).mono hs) fun a r _ hr => .expect a hr

theorem TyEnds.exp_ne {n : Nat} {ty} (h : TyEnds n ty) {ts : List TT} (hn : sizeOf ts < n) : (ty >>= expect) ts ≠ .oof :=
  (h.exp hn (List.suffix_refl ts)).1

theorem size_cons (t : TT) (ts : List TT) : sizeOf ts < sizeOf (t :: ts) := by
  simp only [List.cons.sizeOf_spec]; omega

theorem size_group (d : Delim) (g ts : List TT) : sizeOf g < sizeOf (TT.group d g :: ts) := by
  simp only [List.cons.sizeOf_spec, TT.group.sizeOf_spec]; omega

theorem asOther_run {n : Nat} {ty} (h : TyEnds n ty) {ts us : List TT} (hn : sizeOf ts ≤ n) (hs : ts <:+ us) :
    Run (asOtherType ty) ts us := by
  unfold asOtherType
  refine .step (show peek ts = .ok ts.head? ts from rfl) ?_
  rcases ts with _ | ⟨t, ts⟩
  · exact .pure hs
  · cases t with
    | ident s =>
      simp only [List.head?_cons]
      refine .ite (fun _ => ?_) fun _ => .pure hs
      have hs' := (List.suffix_cons (TT.ident s) ts).trans hs
      refine .step (show next (TT.ident s :: ts) = .ok _ ts from rfl) ?_
      have := size_cons (.ident s) ts
      exact .bind (h.exp (by omega) hs') fun a r _ hr => .pure hr
    | _ => exact .pure hs

theorem assoc_run {n : Nat} {ty} (h : TyEnds n ty) {ts us : List TT} (hn : sizeOf ts ≤ n) (hs : ts <:+ us) :
    Run (asAssociatedDefinition ty) ts us := by
  unfold asAssociatedDefinition
  rcases exact_cases '=' ts with ⟨r, rfl, e⟩ | e
  · refine .step e ?_
    simp only [if_true]
    have := size_cons (.punct '=') r
    exact .bind (h.exp (by omega) ((List.suffix_cons _ _).trans hs)) fun a r _ hr => .pure hr
  · exact .step e (.pure hs)

theorem array_run {n : Nat} {ty} (h : TyEnds n ty) {ts us : List TT} (hn : sizeOf ts < n) (hs : ts <:+ us) :
    Run (nextArray ty) ts us := by
  unfold nextArray
  refine .bind (h.exp hn hs) fun t r er hr => ?_
  have hsz : sizeOf r ≤ sizeOf ts := suffix_size ((h.exp hn (List.suffix_refl ts)).2 _ _ er)
  rcases exact_cases ';' r with ⟨r, rfl, e⟩ | e
  · refine .step e ?_
    simp only [if_true]
    have hr' := (List.suffix_cons _ _).trans hr
    have := size_cons (.punct ';') r
    refine .bind (.bind (.ok (show peek r = .ok r.head? r from rfl) hr') fun a r _ hr => .expect a hr) fun len r1 e1 hr1 => ?_
    have : r1 = r := by
      have : (peek >>= expect) r = expect r.head? r := by rw [M.bind_ok (show peek r = .ok r.head? r from rfl)]
      rw [this] at e1
      cases hh : r.head? with
      | none => rw [hh] at e1; exact absurd e1 (by simp [expect, M.panic])
      | some x => rw [hh] at e1; injection e1 with _ e1; exact e1.symm
    subst this
    split
    · exact .pure hr1
    · exact .bind (h.exp (by omega) hr1) fun a r _ hr => .pure hr
  · exact .step e (.pure hr)

theorem tupleLoop_run {n : Nat} {ty} (h : TyEnds n ty) {m : Nat} (acc) {ts us : List TT} (hn : sizeOf ts < n) (hm : sizeOf ts ≤ m)
    (hs : ts <:+ us) : Run (tupleLoop ty m acc) ts us := by
  induction m generalizing acc ts with
  | zero => have := size_pos ts; omega
  | succ m ih =>
    unfold tupleLoop
    refine .bind ((h ts hn).mono hs) fun o r er hr => ?_
    have hsz : sizeOf r ≤ sizeOf ts := suffix_size ((h ts hn).2 _ _ er)
    cases o with
    | none => exact .pure hr
    | some t =>
      rcases exact_cases ',' r with ⟨r, rfl, e⟩ | e
      · refine .step e ?_
        simp only [if_true]
        have := size_cons (.punct ',') r
        exact ih _ (by omega) (by omega) ((List.suffix_cons _ _).trans hr)
      · exact .step e (.pure hr)

theorem loop_punct {n : Nat} {ty} (h : TyEnds n ty) (c : Char) {loop : Nat → List PType → DM (List PType)}
    (hl : ∀ m acc, loop (m + 1) acc = (do
      if ← nextExactPunct c then do
        let t ← ty >>= expect
        loop m (acc ++ [t])
      else pure acc)) {m : Nat} (acc) {ts us : List TT} (hn : sizeOf ts ≤ n) (hm : sizeOf ts ≤ m)
    (hs : ts <:+ us) : Run (loop m acc) ts us := by
  induction m generalizing acc ts with
  | zero => have := size_pos ts; omega
  | succ m ih =>
    rw [hl]
    rcases exact_cases c ts with ⟨r, rfl, e⟩ | e
    · refine .step e ?_
      simp only [if_true]
      have := size_cons (.punct c) r
      have hr := (List.suffix_cons _ _).trans hs
      refine .bind (h.exp (by omega) hr) fun t r' er hr' => ?_
      have hsz : sizeOf r' ≤ sizeOf r := suffix_size ((h.exp (by omega) (List.suffix_refl r)).2 _ _ er)
      exact ih _ (by omega) (by omega) hr'
    · exact .step e (.pure hs)

theorem plusLoop_run {n : Nat} {ty} (h : TyEnds n ty) {m : Nat} (acc) {ts us : List TT} (hn : sizeOf ts ≤ n) (hm : sizeOf ts ≤ m)
    (hs : ts <:+ us) : Run (plusLoop ty m acc) ts us := loop_punct h '+' (fun _ _ => rfl) acc hn hm hs

theorem commaLoop_run {n : Nat} {ty} (h : TyEnds n ty) {m : Nat} (acc) {ts us : List TT} (hn : sizeOf ts ≤ n) (hm : sizeOf ts ≤ m)
    (hs : ts <:+ us) : Run (commaLoop ty m acc) ts us := loop_punct h ',' (fun _ _ => rfl) acc hn hm hs

theorem pathLoop_run {m : Nat} (acc) {ts us : List TT} (hm : sizeOf ts ≤ m) (hs : ts <:+ us) : Run (pathLoop m acc) ts us := by
  induction m generalizing acc ts with
  | zero => have := size_pos ts; omega
  | succ m ih =>
    rcases ts with _ | ⟨t, ts⟩
    · exact .ok rfl hs
    · cases t with
      | punct a =>
        rcases ts with _ | ⟨u, ts⟩
        · exact .ok rfl hs
        · cases u with
          | punct b =>
            by_cases hab : a = ':' ∧ b = ':'
            · have e : pathLoop (m + 1) acc (.punct a :: .punct b :: ts) = (do
                  let i ← nextIdent >>= expect
                  pathLoop m (acc ++ "::".toList ++ i) : DM Txt) ts := by
                simp only [pathLoop, if_pos hab]
              have hr : ts <:+ us := ((List.suffix_cons _ _).trans (List.suffix_cons _ _)).trans hs
              have h1 := size_cons (.punct a) (.punct b :: ts)
              have h2 := size_cons (.punct b) ts
              have : Run (do
                  let i ← nextIdent >>= expect
                  pathLoop m (acc ++ "::".toList ++ i) : DM Txt) ts us := by
                rcases ident_cases ts with ⟨s, r, rfl, e⟩ | e
                · have h3 := size_cons (.ident s) r
                  refine .step (a := s) (r := r) (by rw [M.bind_ok e]; rfl) ?_
                  exact ih _ (by omega) ((List.suffix_cons _ _).trans hr)
                · refine .bind (.step e .panic) fun a r er hr => ?_
                  rw [M.bind_ok e] at er
                  exact absurd er (by simp [expect, M.panic])
              unfold Run at this ⊢
              rw [e]; exact this
            · exact .ok (a := acc) (by simp only [pathLoop, if_neg hab]) hs
          | _ => exact .ok rfl hs
      | _ => exact .ok rfl hs

theorem Run.of_panic {α : Type} {f : DM α} {ts us : List TT} (h : f ts = .panic) : Run f ts us := by
  rw [Run, h]; simp

theorem Run.bind_panic {α β : Type} {f : DM α} {g : α → DM β} {ts us : List TT} (h : f ts = .panic) : Run (f >>= g) ts us :=
  .of_panic (by rw [M.bind_def, h])

theorem ident_exp (ts : List TT) :
    (∃ c r, ts = .ident c :: r ∧ (nextIdent >>= expect) ts = .ok c r) ∨ (nextIdent >>= expect) ts = .panic := by
  rcases ident_cases ts with ⟨s, r, rfl, e⟩ | e
  · exact .inl ⟨s, r, rfl, by rw [M.bind_ok e]; rfl⟩
  · exact .inr (by rw [M.bind_ok e]; rfl)

theorem group_exp (ts : List TT) :
    (∃ d g r, ts = .group d g :: r ∧ (nextGroup >>= expect) ts = .ok (d, g) r) ∨ (nextGroup >>= expect) ts = .panic := by
  rcases group_cases ts with ⟨d, g, r, rfl, e⟩ | e
  · exact .inl ⟨d, g, r, rfl, by rw [M.bind_ok e]; rfl⟩
  · exact .inr (by rw [M.bind_ok e]; rfl)

theorem peek_eq (ts : List TT) : peek ts = .ok ts.head? ts := rfl

/-- The tail of what is left is left too. -/
theorem suf_tail {t : TT} {ts us : List TT} (h : t :: ts <:+ us) : ts <:+ us := (List.suffix_cons _ _).trans h

theorem Run.exact {c : Char} {ts us : List TT} (hs : ts <:+ us) : Run (nextExactPunct c) ts us := by
  rcases exact_cases c ts with ⟨r, rfl, e⟩ | e
  · exact .ok e (suf_tail hs)
  · exact .ok e hs

theorem Run.punct {ts us : List TT} (hs : ts <:+ us) : Run nextPunct ts us := by
  rcases punct_cases ts with ⟨c, r, rfl, e⟩ | ⟨e, _⟩
  · exact .ok e (suf_tail hs)
  · exact .ok e hs

theorem Run.ident {ts us : List TT} (hs : ts <:+ us) : Run nextIdent ts us := by
  rcases ident_cases ts with ⟨c, r, rfl, e⟩ | e
  · exact .ok e (suf_tail hs)
  · exact .ok e hs

/-- The results of `ty` too are ends of its input. -/
theorem TyEnds.bind {β : Type} {n : Nat} {ty} (h : TyEnds n ty) {ts us : List TT} (hn : sizeOf ts < n) (hs : ts <:+ us)
    {g : PType → DM β} (k : ∀ a r, r <:+ ts → r <:+ us → Run (g a) r us) : Run ((ty >>= expect) >>= g) ts us :=
  .bind (h.exp hn hs) fun a r e hr => k a r ((h.exp hn (List.suffix_refl ts)).2 _ _ e) hr

theorem tuple_run {n : Nat} {ty} (h : TyEnds n ty) {m : Nat} {ts us : List TT} (hn : sizeOf ts < n) (hm : sizeOf ts ≤ m)
    (hs : ts <:+ us) : Run (nextTuple m ty) ts us :=
  .bind (tupleLoop_run h _ hn hm hs) fun _ _ _ hr => .pure hr

theorem ret_run {n : Nat} {ty} (h : TyEnds n ty) {ts us : List TT} (hn : sizeOf ts ≤ n) (hs : ts <:+ us) :
    Run (nextReturnType ty) ts us := by
  rcases ts with _ | ⟨t, ts⟩
  · exact .ok rfl hs
  · cases t with
    | punct a =>
      rcases ts with _ | ⟨u, ts⟩
      · exact .ok rfl hs
      · cases u with
        | punct b =>
          by_cases hab : a = '-' ∧ b = '>'
          · have e : nextReturnType ty (.punct a :: .punct b :: ts) = ((ty >>= expect) >>= fun t => Pure.pure (some t)) ts := by
              simp only [nextReturnType, if_pos hab]
            have h1 := size_cons (.punct a) (.punct b :: ts)
            have h2 := size_cons (.punct b) ts
            have := h.bind (us := us) (by omega) (suf_tail (suf_tail hs)) fun a r _ hr => Run.pure (a := some a) hr
            unfold Run at this ⊢
            rw [e]; exact this
          · exact .ok (a := none) (by simp only [nextReturnType, if_neg hab]) hs
        | _ => exact .ok rfl hs
    | _ => exact .ok rfl hs

theorem closure_run {n : Nat} {ty} (h : TyEnds n ty) (a b : Bool) {ts us : List TT} (hn : sizeOf ts ≤ n) (hs : ts <:+ us) :
    Run (nextClosure ty a b) ts us := by
  unfold nextClosure
  rcases group_cases ts with ⟨d, g, r, rfl, e⟩ | e
  · refine .step e ?_
    have h1 := size_group d g r
    have h2 := size_cons (.group d g) r
    refine .bind (.bind (.onStream (h.exp_ne (by omega)) (suf_tail hs)) fun a r e hr => .pure hr) fun ar r1 e1 hr1 => ?_
    have : r1 = r := by
      simp only at e1
      cases e2 : (ty >>= expect) g with
      | ok a s =>
        rw [M.bind_ok (show onStream g (ty >>= expect) r = .ok a r by simp only [onStream, e2])] at e1
        injection e1 with _ e1; exact e1.symm
      | err x => exact x.elim
      | panic => rw [M.bind_def, show onStream g (ty >>= expect) r = .panic by simp only [onStream, e2]] at e1; cases e1
      | oof => exact absurd e2 (h.exp_ne (by omega))
    subst this
    exact .bind (ret_run h (by omega) hr1) fun _ _ _ hr => .pure hr
  · refine .step e ?_
    refine .step (show (Pure.pure none : DM (Option PType)) ts = .ok none ts from rfl) ?_
    exact .bind (ret_run h hn hs) fun _ _ _ hr => .pure hr

theorem onStream_rest {α : Type} {p : DM α} {g ts r : List TT} {a : α} (h : onStream g p ts = .ok a r) : r = ts := by
  unfold onStream at h
  split at h <;> cases h
  rfl

theorem fnlike_run {n : Nat} {ty} (h : TyEnds n ty) {ts us : List TT} (hn : sizeOf ts ≤ n) (hs : ts <:+ us) :
    Run (nextFunctionLike ty) ts us := by
  unfold nextFunctionLike
  refine .step (peek_eq ts) ?_
  rcases ts with _ | ⟨t, ts⟩
  · exact .pure hs
  · cases t with
    | ident s =>
      simp only [List.head?_cons]
      have h1 := size_cons (.ident s) ts
      have hs' := suf_tail hs
      refine .ite (fun _ => ?_) fun _ => .ite (fun _ => ?_) fun _ => .ite (fun _ => ?_) fun _ => .ite (fun _ => ?_) fun _ => .pure hs
      · refine .step (show next (TT.ident s :: ts) = .ok _ ts from rfl) ?_
        rcases group_exp ts with ⟨d, g, r, rfl, e⟩ | e
        · refine .step e ?_
          have h3 := size_group d g r
          have h4 := size_cons (.group d g) r
          refine .bind (.onStream (h.exp_ne (by simp only; omega)) (suf_tail hs')) fun a r' e' hr => ?_
          have := onStream_rest e'
          subst this
          exact .bind (ret_run h (by omega) hr) fun _ _ _ hr => .pure hr
        · exact .bind_panic e
      all_goals
        refine .step (show next (TT.ident s :: ts) = .ok _ ts from rfl) ?_
        exact .bind (closure_run h _ _ (by omega) hs') fun _ _ _ hr => .pure hr
    | _ => exact .pure hs

theorem object_run {n : Nat} {ty} (h : TyEnds n ty) {m : Nat} {ts us : List TT} (hn : sizeOf ts ≤ n) (hm : sizeOf ts ≤ m)
    (hs : ts <:+ us) : Run (nextObject m ty) ts us := by
  unfold nextObject
  refine .step (peek_eq ts) ?_
  rcases ts with _ | ⟨t, ts⟩
  · exact .pure hs
  · cases t with
    | ident s =>
      simp only [List.head?_cons]
      refine .ite (fun _ => ?_) fun _ => .pure hs
      refine .step (show next (TT.ident s :: ts) = .ok _ ts from rfl) ?_
      have h1 := size_cons (.ident s) ts
      refine h.bind (by omega) (suf_tail hs) fun a r h2 hr => ?_
      have := suffix_size h2
      exact .bind (plusLoop_run h _ (by omega) (by omega) hr) fun _ _ _ hr => .pure hr
    | _ => exact .pure hs

theorem Run.bind' {α β : Type} {f : DM α} {g : α → DM β} {ts us : List TT} (h : ∀ vs, ts <:+ vs → Run f ts vs) (hs : ts <:+ us)
    (k : ∀ a r, r <:+ ts → r <:+ us → Run (g a) r us) : Run (f >>= g) ts us :=
  .bind (h us hs) fun a r e hr => k a r ((h ts (List.suffix_refl _)).2 a r e) hr

/-- `next_type` after the first identifier of a path. -/
theorem path_tail {n : Nat} {ty} (h : TyEnds n ty) {m : Nat} (rt) {head : Option Txt} {ts us : List TT} (hn : sizeOf ts ≤ n) (hm : sizeOf ts ≤ m)
    (hs : ts <:+ us) : Run (do
      let path ← pathLoop m (head.getD [])
      if ← nextExactPunct '<' then do
        if path.isEmpty then do
          let t ← ty >>= expect
          assert (match t.cat with | .named _ => true | _ => false)
          let gt ← nextExactPunct '>'
          assert gt
          let c1 ← nextExactPunct ':'
          let c2 ← nextExactPunct ':'
          assert (c1 && c2)
          let a ← ty >>= expect
          let tr ← expect t.asOther
          Pure.pure (.mk (.associated t tr a) t.wraps rt none)
        else do
          let t ← ty >>= expect
          let args ← commaLoop ty m [t]
          let asO ← asOtherType ty
          match ← asAssociatedDefinition ty with
          | some d => do
            let gt ← nextExactPunct '>'
            assert gt
            Pure.pure (.mk (.associatedBound path d) (some args) rt asO)
          | none => do
            let gt ← nextExactPunct '>'
            assert gt
            Pure.pure (.mk (.named path) (some args) rt asO)
      else do
        let asO ← asOtherType ty
        Pure.pure (.mk (if path.isEmpty then .none else .named path) none rt asO) : DM PType) ts us := by
  refine .bind' (fun _ h => pathLoop_run _ (by omega) h) hs fun path r2 s2 hr2 => ?_
  have z2 := suffix_size s2
  rcases exact_cases '<' r2 with ⟨r, rfl, e⟩ | e
  · refine .step e ?_
    simp only [if_true]
    have hr := suf_tail hr2
    have z3 := size_cons (.punct '<') r
    refine .ite (fun _ => ?_) fun _ => ?_
    · refine h.bind (by omega) hr fun t r4 s4 hr => ?_
      have z4 := suffix_size s4
      refine .bind' (fun _ h => .assert _ h) hr fun _ r5 s5 hr => ?_
      have z5 := suffix_size s5
      refine .bind' (fun _ h => .exact h) hr fun _ r6 s6 hr => ?_
      have z6 := suffix_size s6
      refine .bind' (fun _ h => .assert _ h) hr fun _ r7 s7 hr => ?_
      have z7 := suffix_size s7
      refine .bind' (fun _ h => .exact h) hr fun _ r8 s8 hr => ?_
      have z8 := suffix_size s8
      refine .bind' (fun _ h => .exact h) hr fun _ r9 s9 hr => ?_
      have z9 := suffix_size s9
      refine .bind' (fun _ h => .assert _ h) hr fun _ r10 s10 hr => ?_
      have z10 := suffix_size s10
      refine h.bind (by omega) hr fun a r11 s11 hr => ?_
      exact .bind (.expect _ hr) fun _ _ _ hr => .pure hr
    · refine h.bind (by omega) hr fun t r4 s4 hr => ?_
      have z4 := suffix_size s4
      refine .bind' (fun _ hs => commaLoop_run h _ (by omega) (by omega) hs) hr fun _ r5 s5 hr => ?_
      have z5 := suffix_size s5
      refine .bind' (fun _ hs => asOther_run h (by omega) hs) hr fun _ r6 s6 hr => ?_
      have z6 := suffix_size s6
      refine .bind' (fun _ hs => assoc_run h (by omega) hs) hr fun o r7 s7 hr => ?_
      cases o with
      | none => exact .bind (.exact hr) fun _ _ _ hr => .bind (.assert _ hr) fun _ _ _ hr => .pure hr
      | some d => exact .bind (.exact hr) fun _ _ _ hr => .bind (.assert _ hr) fun _ _ _ hr => .pure hr
  · refine .step e ?_
    simp only [Bool.false_eq_true, if_false]
    exact .bind (asOther_run h (by omega) hr2) fun _ _ _ hr => .pure hr

theorem path_run {n : Nat} {ty} (h : TyEnds n ty) {m : Nat} (rt) {ts us : List TT} (hn : sizeOf ts ≤ n) (hm : sizeOf ts ≤ m)
    (hs : ts <:+ us) : Run (nextPathType m ty rt) ts us := by
  unfold nextPathType
  refine .bind' (fun _ h => .ident h) hs fun hd r1 s1 hr1 => ?_
  have z1 := suffix_size s1
  exact path_tail h rt (by omega) (by omega) hr1

/-! ## Attributes -/

theorem attrLoop_run {m : Nat} (as tk) {ts us : List TT} (hm : sizeOf ts ≤ m) (hs : ts <:+ us) : Run (attrLoop m as tk) ts us := by
  induction m generalizing as tk ts with
  | zero => have := size_pos ts; omega
  | succ m ih =>
    unfold attrLoop
    rcases ident_exp ts with ⟨s, r, rfl, e⟩ | e
    · have z0 := size_cons (.ident s) r
      refine .step e (.step (show nextEof r = .ok r.isEmpty r from rfl) ?_)
      refine .bind' (fun _ h => .punct h) (suf_tail hs) fun p r1 s1 hr => ?_
      have z1 := suffix_size s1
      refine .ite (fun _ => .pure hr) fun _ => .ite (fun _ => ih _ _ (by omega) hr) fun _ => ?_
      refine .bind' (fun _ h => .bind (.literal h) fun _ _ _ h => .expect _ h) hr fun v r2 s2 hr => ?_
      have z2 := suffix_size s2
      refine .step (show nextEof r2 = .ok r2.isEmpty r2 from rfl) ?_
      refine .bind' (fun _ h => .punct h) hr fun p r3 s3 hr => ?_
      have z3 := suffix_size s3
      exact .ite (fun _ => .pure hr) fun _ => .ite (fun _ => ih _ _ (by omega) hr) fun _ => ih _ _ (by omega) hr
    · exact .bind_panic e

theorem attribute_run {n : Nat} {ts us : List TT} (hn : sizeOf ts ≤ n) (hs : ts <:+ us) : Run (nextAttribute n) ts us := by
  unfold nextAttribute
  refine .bind' (fun _ h => .punct h) hs fun p r1 s1 hr => ?_
  have z1 := suffix_size s1
  refine .ite (fun _ => ?_) fun _ => .pure hr
  rcases group_exp r1 with ⟨d, g, r, rfl, e⟩ | e
  · refine .step e (.onStream (Run.mono ?_ (List.suffix_refl g)).1 (suf_tail hr))
    have z2 := size_group d g r
    rcases ident_exp g with ⟨s, r, rfl, e⟩ | e
    · refine .step e (.ite (fun _ => ?_) fun _ => .pure (List.suffix_cons _ _))
      have z3 := size_cons (.ident s) r
      rcases group_exp r with ⟨d', g', r', rfl, e⟩ | e
      · refine .step e ?_
        have z4 := size_group d' g' r'
        exact .bind (.onStream (attrLoop_run _ _ (by simp only; omega) (List.suffix_refl _)).1
          (suf_tail (List.suffix_cons _ _))) fun _ _ _ hr => .pure hr
      · exact .bind_panic e
    · exact .bind_panic e
  · exact .bind_panic e

/-- What is left after an attribute: everything, or an end of what follows the first token. -/
theorem attribute_cases {n : Nat} {ts : List TT} (hn : sizeOf ts ≤ n) :
    (nextAttribute n ts = .ok none ts ∧ ∀ c r, ts ≠ .punct c :: r) ∨ ∃ c r, ts = .punct c :: r ∧ Run (nextAttribute n) ts r := by
  rcases punct_cases ts with ⟨c, r, rfl, e⟩ | ⟨e, hnp⟩
  · refine .inr ⟨c, r, rfl, ?_⟩
    have z := size_cons (.punct c) r
    unfold nextAttribute
    refine .step e (.ite (fun _ => ?_) fun _ => .pure (List.suffix_refl _))
    rcases group_exp r with ⟨d, g, r, rfl, e⟩ | e
    · refine .step e (.onStream (Run.mono ?_ (List.suffix_refl g)).1 (List.suffix_cons _ _))
      have z2 := size_group d g r
      rcases ident_exp g with ⟨s, r, rfl, e⟩ | e
      · refine .step e (.ite (fun _ => ?_) fun _ => .pure (List.suffix_cons _ _))
        have z3 := size_cons (.ident s) r
        rcases group_exp r with ⟨d', g', r', rfl, e⟩ | e
        · refine .step e ?_
          have z4 := size_group d' g' r'
          exact .bind (.onStream (attrLoop_run _ _ (by simp only; omega) (List.suffix_refl _)).1
            (suf_tail (List.suffix_cons _ _))) fun _ _ _ hr => .pure hr
        · exact .bind_panic e
      · exact .bind_panic e
    · exact .bind_panic e
  · refine .inl ⟨?_, hnp⟩
    unfold nextAttribute
    rw [M.bind_ok e]; rfl

theorem attributesLoop_run {k m : Nat} (acc) {ts us : List TT} (hk : sizeOf ts ≤ k) (hm : sizeOf ts ≤ m) (hs : ts <:+ us) :
    Run (attributesLoop k m acc) ts us := by
  induction m generalizing acc ts with
  | zero => have := size_pos ts; omega
  | succ m ih =>
    unfold attributesLoop
    rcases attribute_cases hk with ⟨e, _⟩ | ⟨c, r, rfl, e⟩
    · exact .step e (.pure hs)
    · refine .bind (e.mono (suf_tail hs)) fun a r' ea hr => ?_
      have z := size_cons (.punct c) r
      have z1 := suffix_size (e.2 _ _ ea)
      rcases a with _ | _ | as
      · exact .pure hr
      · exact ih _ (by omega) (by omega) hr
      · exact ih _ (by omega) (by omega) hr

theorem attributes_run {n : Nat} {ts us : List TT} (hn : sizeOf ts ≤ n) (hs : ts <:+ us) : Run (nextAttributesList n) ts us :=
  attributesLoop_run _ hn hn hs

/-- Before anything that is not punctuation there are no attributes; a punctuation is eaten. -/
theorem attributes_cases {n : Nat} {ts : List TT} (hn : sizeOf ts ≤ n) :
    (nextAttributesList n ts = .ok [] ts ∧ ∀ c r, ts ≠ .punct c :: r) ∨ ∃ c r, ts = .punct c :: r ∧ Run (nextAttributesList n) ts r := by
  obtain ⟨n, rfl⟩ : ∃ m, n = m + 1 := ⟨n - 1, by have := size_pos ts; omega⟩
  rcases attribute_cases hn with ⟨e, hnp⟩ | ⟨c, r, rfl, e⟩
  · refine .inl ⟨?_, hnp⟩
    unfold nextAttributesList attributesLoop; rw [M.bind_ok e]; rfl
  · refine .inr ⟨c, r, rfl, ?_⟩
    unfold nextAttributesList attributesLoop
    refine .bind e fun a r' ea hr => ?_
    have z := size_cons (.punct c) r
    have z1 := suffix_size (e.2 _ _ ea)
    rcases a with _ | _ | as
    · exact .pure hr
    · exact attributesLoop_run _ (by omega) (by omega) hr
    · exact attributesLoop_run _ (by omega) (by omega) hr

theorem visibility_cases (ts : List TT) :
    nextVisibility ts = .ok () ts ∨ (∃ s r, ts = .ident s :: r ∧ nextVisibility ts = .ok () r) ∨
      ∃ s g r, ts = .ident s :: .group .paren g :: r ∧ nextVisibility ts = .ok () r := by
  rcases ts with _ | ⟨t, ts⟩
  · exact .inl rfl
  · cases t with
    | ident s =>
      by_cases h : s = "pub".toList
      · subst h
        rcases ts with _ | ⟨u, ts⟩
        · exact .inr (.inl ⟨_, _, rfl, rfl⟩)
        · rcases u with _ | _ | _ | ⟨_ | _ | _ | _, g⟩
          case group.paren => exact .inr (.inr ⟨_, _, _, rfl, rfl⟩)
          all_goals exact .inr (.inl ⟨_, _, rfl, rfl⟩)
      · exact .inl (by simp only [nextVisibility, if_neg h])
    | _ => exact .inl rfl

theorem Run.visibility {ts us : List TT} (hs : ts <:+ us) : Run nextVisibility ts us := by
  rcases visibility_cases ts with e | ⟨s, r, rfl, e⟩ | ⟨s, g, r, rfl, e⟩
  · exact .ok e hs
  · exact .ok e (suf_tail hs)
  · exact .ok e (suf_tail (suf_tail hs))

/-! ## Fields, generics -/

/-- Named fields: every round eats an identifier. -/
theorem namedFields_run {n : Nat} {ty} (h : TyEnds n ty) {k m : Nat} (acc) {ts us : List TT} (hn : sizeOf ts ≤ n) (hk : sizeOf ts ≤ k)
    (hm : sizeOf ts ≤ m) (hs : ts <:+ us) : Run (nextFields k ty true m acc) ts us := by
  induction m generalizing acc ts with
  | zero => have := size_pos ts; omega
  | succ m ih =>
    unfold nextFields
    refine .step (show nextEof ts = .ok ts.isEmpty ts from rfl) ?_
    refine .ite (fun _ => .pure hs) fun _ => ?_
    refine .bind' (fun _ h => attributes_run hk h) hs fun as r1 s1 hr => ?_
    have z1 := suffix_size s1
    refine .bind' (fun _ h => .visibility h) hr fun _ r2 s2 hr => ?_
    have z2 := suffix_size s2
    rcases ident_exp r2 with ⟨s, r, rfl, e⟩ | e
    · have z3 := size_cons (.ident s) r
      have key : ∀ vs, r <:+ vs → Run (do
          let i ← nextIdent >>= expect
          let c ← nextExactPunct ':'
          assert c
          Pure.pure (some i) : DM (Option Txt)) (.ident s :: r) vs := fun vs hv =>
        .step e (.bind (.exact hv) fun _ _ _ hr => .bind (.assert _ hr) fun _ _ _ hr => .pure hr)
      refine .bind (key _ (suf_tail hr)) fun nm r4 e4 hr => ?_
      have z4 := suffix_size ((key r (List.suffix_refl r)).2 _ _ e4)
      refine h.bind (by omega) hr fun t r5 s5 hr => ?_
      have z5 := suffix_size s5
      refine .bind' (fun _ h => .punct h) hr fun _ r6 s6 hr => ?_
      have z6 := suffix_size s6
      exact ih _ (by omega) (by omega) (by omega) hr
    · exact .bind_panic (by simp only [if_true]; rw [M.bind_def, e])

theorem boundsWhile_run {n : Nat} {ty} (h : TyEnds n ty) {m : Nat} (acc) {ts us : List TT} (hn : sizeOf ts < n) (hm : sizeOf ts ≤ m)
    (hs : ts <:+ us) : Run (boundsWhile ty m acc) ts us := by
  induction m generalizing acc ts with
  | zero => have := size_pos ts; omega
  | succ m ih =>
    unfold boundsWhile
    refine .bind' (fun _ hv => (h ts hn).mono hv) hs fun o r s1 hr => ?_
    have z1 := suffix_size s1
    cases o with
    | none => exact .pure hr
    | some t =>
      rcases exact_cases '+' r with ⟨r, rfl, e⟩ | e
      · refine .step e ?_
        simp only [if_true]
        have := size_cons (.punct '+') r
        exact ih _ (by omega) (by omega) (suf_tail hr)
      · exact .step e (.pure hr)

theorem boundsLoop_run {n : Nat} {ty} (h : TyEnds n ty) {m : Nat} (acc) {ts us : List TT} (hn : sizeOf ts < n) (hm : sizeOf ts ≤ m)
    (hs : ts <:+ us) : Run (boundsLoop ty m acc) ts us := by
  induction m generalizing acc ts with
  | zero => have := size_pos ts; omega
  | succ m ih =>
    unfold boundsLoop
    refine .bind' (fun _ hv => (h ts hn).mono hv) hs fun o r s1 hr => ?_
    have z1 := suffix_size s1
    rcases exact_cases '+' r with ⟨r, rfl, e⟩ | e
    · refine .step e ?_
      simp only [if_true]
      have := size_cons (.punct '+') r
      exact ih _ (by omega) (by omega) (suf_tail hr)
    · exact .step e (.pure hr)

theorem lifetimeLoop_run {m : Nat} (acc) {ts us : List TT} (hm : sizeOf ts ≤ m) (hs : ts <:+ us) : Run (lifetimeLoop m acc) ts us := by
  induction m generalizing acc ts with
  | zero => have := size_pos ts; omega
  | succ m ih =>
    unfold lifetimeLoop
    refine .bind' (fun _ h => .lifetime h) hs fun o r s1 hr => ?_
    have z1 := suffix_size s1
    cases o with
    | none => exact .pure hr
    | some t =>
      rcases exact_cases '+' r with ⟨r, rfl, e⟩ | e
      · refine .step e ?_
        simp only [if_true]
        have := size_cons (.punct '+') r
        exact ih _ (by omega) (suf_tail hr)
      · exact .step e (.pure hr)

theorem Run.nextTok {ts us : List TT} (hs : ts <:+ us) : Run (Derive.next >>= Derive.expect) ts us := by
  refine .step (show Derive.next ts = .ok ts.head? ts.tail from rfl) (.expect _ ?_)
  exact (List.tail_suffix ts).trans hs

theorem const_run {n : Nat} {ty} (h : TyEnds n ty) {ts us : List TT} (hn : sizeOf ts < n) (hs : ts <:+ us) :
    Run (nextConstGeneric ty) ts us := by
  unfold nextConstGeneric
  refine .bind' (fun _ h => .nextTok h) hs fun nm r1 s1 hr => ?_
  have z1 := suffix_size s1
  refine .bind' (fun _ h => .nextTok h) hr fun c r2 s2 hr => ?_
  have z2 := suffix_size s2
  refine .bind' (fun _ h => .assert _ h) hr fun _ r3 s3 hr => ?_
  have z3 := suffix_size s3
  refine h.bind (by omega) hr fun t r4 s4 hr => ?_
  have z4 := suffix_size s4
  rcases exact_cases '=' r4 with ⟨r, rfl, e⟩ | e
  · refine .step e ?_
    simp only [if_true]
    have := size_cons (.punct '=') r
    refine .bind' (fun _ h => .step (peek_eq r) (.expect _ h)) (suf_tail hr) fun d r5 s5 hr => ?_
    have z5 := suffix_size s5
    split
    · exact .step (show Derive.next r5 = .ok _ r5.tail from rfl) (.pure ((List.tail_suffix _).trans hr))
    · exact h.bind (by omega) hr fun d r6 s6 hr => .pure hr
  · exact .step e (.pure hr)

/-- An optional part after a punctuation. -/
theorem Run.opt {α : Type} {c : Char} {f : DM α} {d : α} {ts us : List TT} (h : ∀ r, ts = .punct c :: r → Run f r us) (hs : ts <:+ us) :
    Run (do if ← nextExactPunct c then f else Pure.pure d : DM α) ts us := by
  rcases exact_cases c ts with ⟨r, rfl, e⟩ | e
  · refine .step e ?_
    simp only [if_true]
    exact h r rfl
  · exact .step e (.pure hs)

theorem generic_run {n : Nat} {ty} (h : TyEnds n ty) {m : Nat} {ts us : List TT} (hn : sizeOf ts < n) (hm : sizeOf ts ≤ m)
    (hs : ts <:+ us) : Run (nextGeneric m ty) ts us := by
  have hgroup : Run (do
      let t ← ty >>= expect
      let bounds ← (do if ← nextExactPunct ':' then boundsWhile ty m [] else Pure.pure [] : DM (List PType))
      Pure.pure (some (.whereBounded t.full bounds)) : DM (Option Generic)) ts us := by
    refine h.bind hn hs fun t r s1 hr => ?_
    have z1 := suffix_size s1
    refine .bind (.opt (fun r' e => ?_) hr) fun _ _ _ hr => .pure hr
    subst e
    have := size_cons (.punct ':') r'
    exact boundsWhile_run h _ (by omega) (by omega) (suf_tail hr)
  unfold nextGeneric
  refine .step (peek_eq ts) ?_
  rcases ts with _ | ⟨t, ts⟩
  · exact .pure hs
  · cases t with
    | lit s => exact .panic
    | group d g =>
      cases d with
      | brace => exact .pure hs
      | _ => exact hgroup
    | punct c =>
      simp only [List.head?_cons]
      refine .ite (fun _ => .pure hs) fun _ => .ite (fun _ => ?_) fun _ => .panic
      refine .bind' (fun _ h => .bind (.lifetime h) fun _ _ _ h => .expect _ h) hs fun l r s1 hr => ?_
      have z1 := suffix_size s1
      refine .bind (.opt (fun r' e => ?_) hr) fun _ _ _ hr => .pure hr
      subst e
      have := size_cons (.punct ':') r'
      exact lifetimeLoop_run _ (by omega) (suf_tail hr)
    | ident s =>
      simp only [List.head?_cons]
      refine .ite (fun _ => ?_) fun _ => ?_
      · refine .step (show next (TT.ident s :: ts) = .ok _ ts from rfl) ?_
        have h1 := size_cons (.ident s) ts
        exact .bind (const_run h (by omega) (suf_tail hs)) fun _ _ _ hr => .pure hr
      · refine h.bind hn hs fun t r s1 hr => ?_
        have z1 := suffix_size s1
        refine .bind' (fun vs hv => .opt (fun r' e => ?_) hv) hr fun bs r2 s2 hr => ?_
        · subst e
          have := size_cons (.punct ':') r'
          exact boundsLoop_run h _ (by omega) (by omega) (suf_tail hv)
        · have z2 := suffix_size s2
          refine .bind (.opt (fun r' e => ?_) hr) fun _ _ _ hr => .pure hr
          subst e
          have := size_cons (.punct '=') r'
          exact h.bind (by omega) (suf_tail hr) fun _ _ _ hr => .pure hr

theorem genericsLoop_run {n : Nat} {ty} (h : TyEnds n ty) {k m : Nat} (acc) {ts us : List TT} (hn : sizeOf ts < n) (hk : sizeOf ts ≤ k)
    (hm : sizeOf ts ≤ m) (hs : ts <:+ us) : Run (genericsLoop k ty m acc) ts us := by
  induction m generalizing acc ts with
  | zero => have := size_pos ts; omega
  | succ m ih =>
    unfold genericsLoop
    refine .bind' (fun _ hv => generic_run h hn hk hv) hs fun o r s1 hr => ?_
    have z1 := suffix_size s1
    cases o with
    | none => exact .pure hr
    | some g =>
      refine .bind' (fun vs hv => .ite (fun _ => .expect _ hv) fun _ => .pure hv) hr fun ret r2 s2 hr => ?_
      have z2 := suffix_size s2
      rcases exact_cases ',' r2 with ⟨r, rfl, e⟩ | e
      · refine .step e ?_
        simp only [if_true]
        have := size_cons (.punct ',') r
        exact ih _ (by omega) (by omega) (by omega) (suf_tail hr)
      · exact .step e (.pure hr)

theorem whereLoop_run {n : Nat} {ty} (h : TyEnds n ty) {k m : Nat} (acc) {ts us : List TT} (hn : sizeOf ts < n) (hk : sizeOf ts ≤ k)
    (hm : sizeOf ts ≤ m) (hs : ts <:+ us) : Run (whereLoop k ty m acc) ts us := by
  induction m generalizing acc ts with
  | zero => have := size_pos ts; omega
  | succ m ih =>
    unfold whereLoop
    refine .bind' (fun _ hv => generic_run h hn hk hv) hs fun o r s1 hr => ?_
    have z1 := suffix_size s1
    cases o with
    | none => exact .pure hr
    | some g =>
      refine .bind' (fun vs hv => .ite (fun _ => .expect _ hv) fun _ => .bind (.expect _ hv) fun _ _ _ hv => .pure hv) hr fun ret r2 s2 hr => ?_
      have z2 := suffix_size s2
      rcases exact_cases ',' r2 with ⟨r, rfl, e⟩ | e
      · refine .step e ?_
        simp only [if_true]
        have := size_cons (.punct ',') r
        refine .bind' (fun _ h => .exact h) (suf_tail hr) fun b r3 s3 hr => ?_
        have z3 := suffix_size s3
        exact .ite (fun _ => .pure hr) fun _ => ih _ (by omega) (by omega) (by omega) hr
      · exact .step e (.pure hr)

theorem bounds_run {n : Nat} {ty} (h : TyEnds n ty) {m : Nat} {ts us : List TT} (hn : sizeOf ts ≤ n) (hm : sizeOf ts ≤ m)
    (hs : ts <:+ us) : Run (getAllBounds m ty) ts us := by
  unfold getAllBounds
  refine .step (peek_eq ts) (.ite (fun hh => ?_) fun _ => .pure hs)
  rcases ts with _ | ⟨t, ts⟩
  · cases hh
  · refine .step (show next (t :: ts) = .ok _ ts from rfl) ?_
    have z0 := size_cons t ts
    refine .bind' (fun _ hv => genericsLoop_run h _ (by omega) (by omega) (by omega) hv) (suf_tail hs) fun ret r1 s1 hr => ?_
    have z1 := suffix_size s1
    refine .bind' (fun _ h => .exact h) hr fun b r2 s2 hr => ?_
    have z2 := suffix_size s2
    refine .bind' (fun _ h => .assert _ h) hr fun b r3 s3 hr => ?_
    have z3 := suffix_size s3
    refine .step (peek_eq r3) ?_
    rcases r3 with _ | ⟨u, r⟩
    · exact .pure hr
    · simp only [List.head?_cons]
      refine .ite (fun _ => ?_) fun _ => .pure hr
      refine .step (show next (u :: r) = .ok _ r from rfl) ?_
      have z4 := size_cons u r
      exact whereLoop_run h _ (by omega) (by omega) (by omega) (suf_tail hr)

/-! ## Types -/

/-- A struct in braces, as a type. -/
theorem brace_run {n : Nat} {ty} (h : TyEnds n ty) {m : Nat} {g ts us : List TT} (hn : sizeOf (TT.group .brace g :: ts) ≤ n)
    (hm : sizeOf (TT.group .brace g :: ts) ≤ m) (hs : ts <:+ us) : Run (nextStruct m ty) (.group .brace g :: ts) us := by
  unfold nextStruct
  refine .step (show nextIdent (.group .brace g :: ts) = .ok none _ from rfl) ?_
  have eb : getAllBounds m ty (.group .brace g :: ts) = .ok [] (.group .brace g :: ts) := by
    unfold getAllBounds
    rw [M.bind_ok (peek_eq _)]
    rfl
  refine .step eb (.step (show nextGroup (.group .brace g :: ts) = .ok (some (.brace, g)) ts from rfl) ?_)
  have z := size_group .brace g ts
  exact .bind (.onStream (namedFields_run h _ (by omega) (by omega) (by omega) (List.suffix_refl g)).1 hs) fun _ _ _ hr => .pure hr

/-- The part of `typeCore` for everything but a group. -/
theorem core_other_run {n : Nat} {ty} (h : TyEnds n ty) {m : Nat} (rt) {ts us : List TT} (hn : sizeOf ts ≤ n) (hm : sizeOf ts ≤ m)
    (hs : ts <:+ us) : Run (do
      match ← nextObject m ty with
      | some t => Pure.pure (some (t.setRef rt))
      | none => do
        match ← nextFunctionLike ty with
        | some t => Pure.pure (some (t.setRef rt))
        | none => do
          let t ← nextPathType m ty rt
          Pure.pure (some t) : DM (Option PType)) ts us := by
  refine .bind' (fun _ hv => object_run h hn hm hv) hs fun o r1 s1 hr => ?_
  have z1 := suffix_size s1
  cases o with
  | some t => exact .pure hr
  | none =>
    refine .bind' (fun _ hv => fnlike_run h (by omega) hv) hr fun o r2 s2 hr => ?_
    have z2 := suffix_size s2
    cases o with
    | some t => exact .pure hr
    | none => exact .bind (path_run h _ (by omega) (by omega) hr) fun _ _ _ hr => .pure hr

theorem core_run {n : Nat} {ty} (h : TyEnds n ty) {m : Nat} (rt) {ts us : List TT} (hn : sizeOf ts ≤ n) (hm : sizeOf ts ≤ m)
    (hs : ts <:+ us) : Run (typeCore m ty rt) ts us := by
  unfold typeCore
  refine .step (peek_eq ts) ?_
  rcases ts with _ | ⟨t, ts⟩
  · exact core_other_run h rt hn hm hs
  · cases t with
    | group d g =>
      have z := size_group d g ts
      cases d with
      | none => exact .panic
      | brace => exact .bind (brace_run h hn hm (suf_tail hs)) fun _ _ _ hr => .pure hr
      | bracket =>
        refine .step (show next (TT.group .bracket g :: ts) = .ok _ ts from rfl) ?_
        exact .bind (.onStream (array_run h (by omega) (List.suffix_refl _)).1 (suf_tail hs)) fun _ _ _ hr => .pure hr
      | paren =>
        refine .step (show next (TT.group .paren g :: ts) = .ok _ ts from rfl) ?_
        exact .bind (.onStream (tuple_run h (by omega) (by omega) (List.suffix_refl _)).1 (suf_tail hs)) fun _ _ _ hr => .pure hr
    | _ => exact core_other_run h rt hn hm hs

theorem body_run {n : Nat} {ty} (h : TyEnds n ty) {m : Nat} {ts us : List TT} (hn : sizeOf ts ≤ n) (hm : sizeOf ts ≤ m)
    (hs : ts <:+ us) : Run (typeBody m ty) ts us := by
  unfold typeBody
  rcases exact_cases ',' ts with ⟨r, rfl, e⟩ | e
  · exact .step e (.pure (suf_tail hs))
  refine .step e ?_
  simp only [Bool.false_eq_true, if_false]
  rcases exact_cases '!' ts with ⟨r, rfl, e⟩ | e
  · exact .step e (.pure (suf_tail hs))
  refine .step e ?_
  simp only [Bool.false_eq_true, if_false]
  rcases exact_cases '\'' ts with ⟨r, rfl, e⟩ | e
  · refine .step e ?_
    simp only [if_true]
    exact .bind' (fun _ h => .bind (.ident h) fun _ _ _ h => .expect _ h) (suf_tail hs) fun _ _ _ hr => .pure hr
  refine .step e ?_
  simp only [Bool.false_eq_true, if_false]
  rcases exact_cases '&' ts with ⟨r, rfl, e⟩ | e
  · refine .step e ?_
    simp only [if_true]
    have z := size_cons (.punct '&') r
    refine .bind' (fun _ h => .lifetime h) (suf_tail hs) fun l r1 s1 hr => ?_
    have z1 := suffix_size s1
    exact core_run h _ (by omega) (by omega) hr
  refine .step e ?_
  simp only [Bool.false_eq_true, if_false]
  exact core_run h _ hn hm hs

/-- `next_type` stops on every token list. -/
theorem type_ends (n : Nat) : TyEnds n (nextType n) := by
  induction n with
  | zero => intro ts h; omega
  | succ n ih =>
    intro ts h
    unfold nextType
    exact body_run ih (by omega) (by omega) (List.suffix_refl ts)

/-- Before an identifier or a group, `next_type` takes that token. -/
theorem core_eats {n : Nat} {ty} (h : TyEnds n ty) {m : Nat} {t : TT} {ts : List TT} (hn : sizeOf (t :: ts) ≤ n)
    (hm : sizeOf (t :: ts) ≤ m) (ht : (∃ s, t = .ident s) ∨ ∃ d g, t = .group d g) : Run (typeCore m ty none) (t :: ts) ts := by
  have z0 := size_cons t ts
  rcases ht with ⟨s, rfl⟩ | ⟨d, g, rfl⟩
  · show Run (do
      match ← nextObject m ty with
      | some t => Pure.pure (some (t.setRef none))
      | none => do
        match ← nextFunctionLike ty with
        | some t => Pure.pure (some (t.setRef none))
        | none => do
          let t ← nextPathType m ty none
          Pure.pure (some t) : DM (Option PType)) (.ident s :: ts) ts
    have hobj : nextObject m ty (.ident s :: ts) = .ok none (.ident s :: ts) ∨ Run (nextObject m ty) (.ident s :: ts) ts := by
      by_cases hc : s = "impl".toList ∨ s = "dyn".toList
      · refine .inr ?_
        unfold nextObject
        refine .step (peek_eq _) ?_
        simp only [List.head?_cons, if_pos hc]
        refine .step (show next (TT.ident s :: ts) = .ok _ ts from rfl) ?_
        refine h.bind (by omega) (List.suffix_refl ts) fun a r h2 hr => ?_
        have := suffix_size h2
        exact .bind (plusLoop_run h _ (by omega) (by omega) hr) fun _ _ _ hr => .pure hr
      · refine .inl ?_
        unfold nextObject
        rw [M.bind_ok (peek_eq _)]
        simp only [List.head?_cons, if_neg hc]
        rfl
    rcases hobj with e | e
    · refine .step e ?_
      have hfn : nextFunctionLike ty (.ident s :: ts) = .ok none (.ident s :: ts) ∨ Run (nextFunctionLike ty) (.ident s :: ts) ts := by
        by_cases hc : s = "fn".toList ∨ s = "Fn".toList ∨ s = "FnMut".toList ∨ s = "FnOnce".toList
        · refine .inr ?_
          unfold nextFunctionLike
          refine .step (peek_eq _) ?_
          simp only [List.head?_cons]
          refine .ite (fun _ => ?_) fun h1 => .ite (fun _ => ?_) fun h2 => .ite (fun _ => ?_) fun h3 => .ite (fun _ => ?_) fun h4 => ?_
          · refine .step (show next (TT.ident s :: ts) = .ok _ ts from rfl) ?_
            rcases group_exp ts with ⟨d, g, r, rfl, e⟩ | e
            · refine .step e ?_
              have h3 := size_group d g r
              have h4 := size_cons (.group d g) r
              refine .bind (.onStream (h.exp_ne (by simp only; omega)) (List.suffix_cons _ _)) fun a r' e' hr => ?_
              have := onStream_rest e'
              subst this
              exact .bind (ret_run h (by omega) hr) fun _ _ _ hr => .pure hr
            · exact .bind_panic e
          iterate 3
            refine .step (show next (TT.ident s :: ts) = .ok _ ts from rfl) ?_
            exact .bind (closure_run h _ _ (by omega) (List.suffix_refl ts)) fun _ _ _ hr => .pure hr
          exact absurd hc (by rintro (h | h | h | h) <;> contradiction)
        · refine .inl ?_
          unfold nextFunctionLike
          rw [M.bind_ok (peek_eq _)]
          simp only [List.head?_cons]
          rw [if_neg (fun h => hc (.inl h)), if_neg (fun h => hc (.inr (.inl h))), if_neg (fun h => hc (.inr (.inr (.inl h)))),
            if_neg (fun h => hc (.inr (.inr (.inr h))))]
          rfl
      rcases hfn with e | e
      · refine .step e ?_
        refine .bind ?_ fun _ _ _ hr => .pure hr
        unfold nextPathType
        refine .step (show nextIdent (.ident s :: ts) = .ok (some s) ts from rfl) ?_
        exact path_tail h none (by omega) (by omega) (List.suffix_refl ts)
      · exact .bind e fun o r e' hr => by
          cases o with
          | some t => exact .pure hr
          | none => 
            have z := suffix_size hr
            exact .bind (path_run h _ (by omega) (by omega) hr) fun _ _ _ hr => .pure hr
    · refine .bind e fun o r e' hr => ?_
      have z := suffix_size hr
      cases o with
      | some t => exact .pure hr
      | none =>
        refine .bind' (fun _ hv => fnlike_run h (by omega) hv) hr fun o r2 s2 hr => ?_
        have z2 := suffix_size s2
        cases o with
        | some t => exact .pure hr
        | none => exact .bind (path_run h _ (by omega) (by omega) hr) fun _ _ _ hr => .pure hr
  · unfold typeCore
    refine .step (peek_eq _) ?_
    have z := size_group d g ts
    have hs := List.suffix_refl ts
    cases d with
    | none => exact .panic
    | brace => exact .bind (brace_run h hn hm hs) fun _ _ _ hr => .pure hr
    | bracket =>
      refine .step (show next (TT.group .bracket g :: ts) = .ok _ ts from rfl) ?_
      exact .bind (.onStream (array_run h (by omega) (List.suffix_refl _)).1 hs) fun _ _ _ hr => .pure hr
    | paren =>
      refine .step (show next (TT.group .paren g :: ts) = .ok _ ts from rfl) ?_
      exact .bind (.onStream (tuple_run h (by omega) (by omega) (List.suffix_refl _)).1 hs) fun _ _ _ hr => .pure hr

theorem type_eats {n : Nat} {t : TT} {ts : List TT} (hn : sizeOf (t :: ts) < n)
    (ht : (∃ s, t = .ident s) ∨ ∃ d g, t = .group d g) : Run (nextType n) (t :: ts) ts := by
  obtain ⟨n, rfl⟩ : ∃ m, n = m + 1 := ⟨n - 1, by omega⟩
  have e : ∀ c, nextExactPunct c (t :: ts) = .ok false (t :: ts) := by
    intro c
    rcases ht with ⟨s, rfl⟩ | ⟨d, g, rfl⟩ <;> rfl
  unfold nextType typeBody
  refine .step (e ',') ?_
  simp only [Bool.false_eq_true, if_false]
  refine .step (e '!') ?_
  simp only [Bool.false_eq_true, if_false]
  refine .step (e '\'') ?_
  simp only [Bool.false_eq_true, if_false]
  refine .step (e '&') ?_
  simp only [Bool.false_eq_true, if_false]
  exact core_eats (type_ends n) (by omega) (by omega) ht

/-! ## The whole item -/

/-- No literal stands in the list itself. -/
def NoLit (ts : List TT) : Prop := ∀ s, TT.lit s ∉ ts

theorem NoLit.suffix {r ts : List TT} (h : NoLit ts) (hs : r <:+ ts) : NoLit r := fun s hm => h s (hs.subset hm)

/-- Unnamed fields, when no literal stands among their tokens. -/
theorem tupleFields_run {n : Nat} {k m : Nat} (acc) {ts us : List TT} (hl : NoLit ts) (hn : sizeOf ts < n) (hk : sizeOf ts ≤ k)
    (hm : sizeOf ts ≤ m) (hs : ts <:+ us) : Run (nextFields k (nextType n) false m acc) ts us := by
  induction m generalizing acc ts with
  | zero => have := size_pos ts; omega
  | succ m ih =>
    unfold nextFields
    refine .step (show nextEof ts = .ok ts.isEmpty ts from rfl) ?_
    refine .ite (fun _ => .pure hs) fun hne => ?_
    simp only [Bool.false_eq_true, if_false]
    -- what one round leaves
    have after : ∀ as r, r <:+ ts → sizeOf r < sizeOf ts → Run (do
        let t ← nextType n >>= expect
        let _ ← nextPunct
        nextFields k (nextType n) false m (acc ++ [.mk as none t])) r us := by
      intro as r hr hz
      refine (type_ends n).bind (by omega) (hr.trans hs) fun t r2 s2 hr2 => ?_
      have z2 := suffix_size s2
      refine .bind' (fun _ h => .punct h) hr2 fun _ r3 s3 hr3 => ?_
      have z3 := suffix_size s3
      exact ih _ (hl.suffix ((s3.trans s2).trans hr)) (by omega) (by omega) (by omega) hr3
    rcases attributes_cases hk with ⟨e, hnp⟩ | ⟨c, r, rfl, e⟩
    · refine .step e ?_
      rcases visibility_cases ts with e | ⟨s, r, rfl, e⟩ | ⟨s, g, r, rfl, e⟩
      · refine .step e (.step (show (Pure.pure none : DM (Option Txt)) ts = .ok none ts from rfl) ?_)
        rcases ts with _ | ⟨t, ts⟩
        · exact absurd rfl hne
        · have z := size_cons t ts
          cases t with
          | lit s => exact absurd (List.mem_cons_self) (hl s)
          | punct c => exact absurd rfl (hnp c ts)
          | _ =>
            have run : Run (nextType n >>= Derive.expect) _ ts := .bind (type_eats hn (by simp)) fun _ _ _ h => .expect _ h
            refine .bind (run.mono (suf_tail hs)) fun t r2 e2 hr2 => ?_
            have s2 := run.2 _ _ e2
            have z2 := suffix_size s2
            refine .bind' (fun _ h => .punct h) hr2 fun _ r3 s3 hr3 => ?_
            have z3 := suffix_size s3
            exact ih _ (hl.suffix ((s3.trans s2).trans (List.suffix_cons _ _))) (by omega) (by omega) (by omega) hr3
      · refine .step e (.step (show (Pure.pure none : DM (Option Txt)) r = .ok none r from rfl) ?_)
        exact after _ _ (List.suffix_cons _ _) (size_cons _ _)
      · refine .step e (.step (show (Pure.pure none : DM (Option Txt)) r = .ok none r from rfl) ?_)
        have := size_cons (.ident s) (.group .paren g :: r)
        have := size_cons (.group .paren g) r
        exact after _ _ (suf_tail (List.suffix_cons _ _)) (by omega)
    · refine .bind (e.mono (suf_tail hs)) fun as r1 e1 hr1 => ?_
      have s1 := e.2 _ _ e1
      have z1 := suffix_size s1
      have z := size_cons (.punct c) r
      have key : ∀ vs, r1 <:+ vs → Run nextVisibility r1 vs := fun _ h => .visibility h
      refine .bind' key hr1 fun _ r2 s2 hr2 => ?_
      have z2 := suffix_size s2
      refine .step (show (Pure.pure none : DM (Option Txt)) r2 = .ok none r2 from rfl) ?_
      exact after _ _ ((s2.trans s1).trans (List.suffix_cons _ _)) (by omega)

/-- Every parenthesised group directly in the list has no literal directly in it. -/
def NoLitFields (ts : List TT) : Prop := ∀ g, TT.group .paren g ∈ ts → NoLit g

theorem struct_run {n : Nat} {ts us : List TT} (hl : NoLitFields ts) (hn : sizeOf ts < n) (hs : ts <:+ us) :
    Run (nextStruct n (nextType n)) ts us := by
  have h := type_ends n
  unfold nextStruct
  refine .bind' (fun _ h => .ident h) hs fun nm r1 s1 hr => ?_
  have z1 := suffix_size s1
  refine .bind' (fun _ hv => bounds_run h (by omega) (by omega) hv) hr fun gs r2 s2 hr => ?_
  have z2 := suffix_size s2
  rcases group_cases r2 with ⟨d, g, r, rfl, e⟩ | e
  · refine .step e ?_
    have z := size_group d g r
    cases d with
    | paren =>
      have hg : NoLit g := hl g ((s2.trans s1).subset List.mem_cons_self)
      refine .bind (.onStream (tupleFields_run _ hg (by omega) (by omega) (by omega) (List.suffix_refl g)).1 (suf_tail hr)) fun fs r' e' hr => ?_
      exact .bind (.exact hr) fun _ _ _ hr => .bind (.assert _ hr) fun _ _ _ hr => .pure hr
    | brace =>
      exact .bind (.onStream (namedFields_run h _ (by omega) (by omega) (by omega) (List.suffix_refl g)).1 (suf_tail hr)) fun _ _ _ hr => .pure hr
    | bracket => exact .panic
    | none => exact .panic
  · exact .step e (.bind (.punct hr) fun _ _ _ hr => .pure hr)

/-- Variants: every round eats `=` or an identifier. -/
theorem variants_run {n : Nat} {ty} (h : TyEnds n ty) {k m : Nat} (acc) {ts us : List TT} (hn : sizeOf ts ≤ n) (hk : sizeOf ts ≤ k)
    (hm : sizeOf ts ≤ m) (hs : ts <:+ us) : Run (variantsLoop k ty m acc) ts us := by
  induction m generalizing acc ts with
  | zero => have := size_pos ts; omega
  | succ m ih =>
    unfold variantsLoop
    refine .step (show nextEof ts = .ok ts.isEmpty ts from rfl) ?_
    refine .ite (fun _ => .pure hs) fun _ => ?_
    rcases exact_cases '=' ts with ⟨r, rfl, e⟩ | e
    · refine .step e ?_
      simp only [if_true]
      have z := size_cons (.punct '=') r
      refine .step (show next r = .ok _ r.tail from rfl) ?_
      have z1 := suffix_size (List.tail_suffix r)
      refine .bind' (fun _ h => .exact h) ((List.tail_suffix r).trans (suf_tail hs)) fun _ r2 s2 hr => ?_
      have z2 := suffix_size s2
      exact ih _ (by omega) (by omega) (by omega) hr
    · refine .step e ?_
      simp only [Bool.false_eq_true, if_false]
      refine .bind' (fun _ h => attributes_run hk h) hs fun as r1 s1 hr => ?_
      have z1 := suffix_size s1
      rcases ident_exp r1 with ⟨s, r, rfl, e⟩ | e
      · refine .step e ?_
        have z3 := size_cons (.ident s) r
        refine .bind' (fun _ hv => (h r (by omega)).mono hv) (suf_tail hr) fun o r4 s4 hr => ?_
        have z4 := suffix_size s4
        cases o with
        | none =>
          refine .bind' (fun _ h => .exact h) hr fun _ r5 s5 hr => ?_
          have z5 := suffix_size s5
          exact ih _ (by omega) (by omega) (by omega) hr
        | some t =>
          refine .bind' (fun _ h => .exact h) hr fun _ r5 s5 hr => ?_
          have z5 := suffix_size s5
          refine .bind' (fun _ h => .exact h) hr fun _ r6 s6 hr => ?_
          have z6 := suffix_size s6
          exact ih _ (by omega) (by omega) (by omega) hr
      · exact .bind_panic e

theorem enum_run {n : Nat} {ts us : List TT} (hn : sizeOf ts < n) (hs : ts <:+ us) : Run (nextEnum n (nextType n)) ts us := by
  have h := type_ends n
  unfold nextEnum
  refine .bind' (fun _ h => .bind (.ident h) fun _ _ _ h => .expect _ h) hs fun nm r1 s1 hr => ?_
  have z1 := suffix_size s1
  refine .bind' (fun _ hv => bounds_run h (by omega) (by omega) hv) hr fun gs r2 s2 hr => ?_
  have z2 := suffix_size s2
  rcases group_cases r2 with ⟨d, g, r, rfl, e⟩ | e
  · refine .step e ?_
    have z := size_group d g r
    exact .bind (.onStream (variants_run h _ (by omega) (by omega) (by omega) (List.suffix_refl g)).1 (suf_tail hr)) fun _ _ _ hr => .pure hr
  · exact .step e (.pure hr)

theorem NoLitFields.suffix {r ts : List TT} (h : NoLitFields ts) (hs : r <:+ ts) : NoLitFields r := fun g hm => h g (hs.subset hm)

theorem parse_run {n : Nat} {ts : List TT} (hl : TT.ident "struct".toList ∈ ts → NoLitFields ts) (hn : sizeOf ts < n) : Run (parseData n) ts ts := by
  unfold parseData
  refine .bind' (fun _ h => attributes_run (by omega) h) (List.suffix_refl ts) fun as r1 s1 hr => ?_
  have z1 := suffix_size s1
  rcases ident_exp r1 with ⟨pt, r2, rfl, e⟩ | e
  rotate_left
  · exact .bind_panic e
  refine .step e ?_
  have z2 := size_cons (.ident pt) r2
  have hk : ∀ kw r, (if pt = "pub".toList then nextIdent >>= expect else Pure.pure pt : DM Txt) r2 = .ok kw r → TT.ident kw ∈ ts := by
    intro kw r ek
    by_cases hp : pt = "pub".toList
    · rw [if_pos hp] at ek
      rcases ident_exp r2 with ⟨c, r', rfl, e⟩ | e
      · rw [e] at ek; injection ek with ek _; subst ek
        exact hr.subset (List.mem_cons_of_mem _ List.mem_cons_self)
      · rw [e] at ek; cases ek
    · rw [if_neg hp] at ek; injection ek with ek _; subst ek
      exact hr.subset List.mem_cons_self
  have hr := suf_tail hr
  have hkr : ∀ vs, r2 <:+ vs → Run (if pt = "pub".toList then nextIdent >>= Derive.expect else Pure.pure pt : DM Txt) r2 vs :=
    fun _ h => .ite (fun _ => .bind (.ident h) fun _ _ _ h => .expect _ h) fun _ => .pure h
  refine .bind (hkr _ hr) fun kw r3 ek hr => ?_
  have z3 := suffix_size ((hkr r2 (List.suffix_refl _)).2 _ _ ek)
  have hk := hk _ _ ek
  refine .bind (.ite (fun hkw => ?_) fun _ => .ite (fun _ => ?_) fun _ => .panic) fun res r4 e4 hr => ?_
  · exact .bind (struct_run ((hl (hkw ▸ hk)).suffix hr) (by omega) hr) fun _ _ _ hr => .pure hr
  · exact .bind (enum_run (by omega) hr) fun _ _ _ hr => .pure hr
  · exact .step (show nextEof r4 = .ok r4.isEmpty r4 from rfl) (.bind (.assert _ hr) fun _ _ _ hr => .pure hr)

end NS.Derive
