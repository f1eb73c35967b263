import Verif.Lemmas.BinHalts
import Verif.Lemmas.RonEnds
import Verif.Lemmas.RonLayout
import Verif.Props.BinRead
import Verif.Props.RonHalts
import Verif.Props.RonRound
/-! # Property C91: how deep the readers nest

`deBin env chk d n t` gives up (`.oof`) exactly if more than `n` reader calls would be open at once, and the text
readers do so if more than `n` are open or some loop runs more than `n` rounds, so a bound on `n` that suffices is a
bound on the stack and on the length of every loop. -/
namespace NS
variable {env : Env} {fl : FloatOps}

/-- **C91** (binary): for every type there is a `K` such that on every input the reader returns without opening more
than `K` calls for each byte (and `K` more). -/
theorem C91_bin_nesting_linear (hp : BinProg env) (hi : Inhabitable env) {t : Ty} (ht : BinWf env t) :
    ∃ K, ∀ chk (d : List Byte), d.length ≤ isizeMax →
      ∃ r, r ≠ .oof ∧ ∀ n, K * (d.length + 1) ≤ n → deserializeBin env chk n t d = r := by
  obtain ⟨K, _, h⟩ := deBin_linear hp hi ht
  refine ⟨K, fun chk d hd => ?_⟩
  have g := (h chk d hd (d.length + 1) 0 (by omega) 0 (Nat.le_refl _) (Nat.zero_le _)).1
  refine ⟨_, g, fun n hn => ?_⟩
  exact deBin_mono env chk d hn t 0 g

/-- **C91** (JSON): for every type of a program there is a `K` such that on every text the reader returns with at most `K` calls
open and at most `K` rounds of each loop for each character (and `K` more), unless the text consists of lexemes among which some
bracket is not closed (C31). -/
theorem C91_json_nesting_linear (hfl : FloatLaws fl) (hw : ProgWf env) (hp : Productive env) {t : Ty} (ht : TyWf env t) :
    ∃ K, ∀ txt : List Char, ∃ r, (∀ n, K * (txt.length + 1) ≤ n → deserializeJson env fl n t txt = r) ∧
      (r = .oof → ∃ ls, JWhole fl ls txt ∧ ¬ BracketsClosed ls) := by
  obtain ⟨rank, K, hr, hK⟩ := hp.bound t
  refine ⟨2 * (K + 1), fun txt => ?_⟩
  obtain ⟨o, h1, _, h3⟩ := read_bound (scan_reading hfl txt) hw hr (progTys_closed env t) hK t (progTys_self env t) ht txt
    (by rw [initSt_txt]; exact .nil) (D := True) (.inl trivial)
  refine ⟨o, fun n hn => h1 n (Nat.le_trans ?_ hn), h3⟩
  rw [Nat.mul_comm 2, Nat.mul_assoc]
  exact Nat.mul_le_mul_left _ (by omega)

/-- **C91** (RON). -/
theorem C91_ron_nesting_linear (hw : ProgWf env) (hnp : env.proxies = []) {t : Ty} (ht : TyWf env t) :
    ∃ K, ∀ txt : List Char, ∃ r, r ≠ .oof ∧ ∀ n, K * (txt.length + 1) ≤ n → deserializeRon env fl n t txt = r := by
  obtain ⟨K, hK⟩ := bounded_on sizeOf (progTys env t)
  refine ⟨2 * (K + 1), fun txt => ?_⟩
  obtain ⟨o, h1, _, h3⟩ := ron_bound (fl := fl) hw hnp (progTys_closed env t) hK t (progTys_self env t) ht txt
    (D := True) (.inl trivial)
  refine ⟨o, h3, fun n hn => h1 n (Nat.le_trans ?_ hn)⟩
  rw [Nat.mul_comm 2, Nat.mul_assoc]
  exact Nat.mul_le_mul_left _ (by omega)

/-! ## No limit -/

/-- `struct N(Option<Box<N>>)`. -/
noncomputable def exNest : Env := lawEnv [.tuple [.option (.box (.named 0))] false] []

theorem exNest_def : exNest.defs[0]? = some (.tuple [.option (.box (.named 0))] false) := rfl

/-- `N(Some(N(… N(None))))`, with `k` times `Some`. -/
def nest : Nat → Val
  | 0 => .struct [.none]
  | k + 1 => .struct [.some (.box (nest k))]

/-- Its binary form. -/
theorem nest_bytes (k : Nat) : serializeBin exNest (.named 0) (nest k) = List.replicate k 1 ++ [0] := by
  induction k with
  | zero => simp [nest, serializeBin, serBin, exNest_def, serBinTys]
  | succ k ih =>
    unfold serializeBin at *
    simp [nest, serBin, exNest_def, serBinTys, ih, List.replicate_succ]

theorem nest_typed (k : Nat) : HasTy exNest (.named 0) (nest k) := by
  induction k with
  | zero => simp [nest, HasTy, exNest_def, TysTy]
  | succ k ih => simp [nest, HasTy, exNest_def, TysTy, ih]

theorem nest_skip (k : Nat) : SkipEq exNest false (.named 0) (nest k) (nest k) := by
  induction k with
  | zero => simp [nest, SkipEq, exNest_def, SkipEqTys]
  | succ k ih => simp [nest, SkipEq, exNest_def, SkipEqTys, ih]

theorem nest_holds {P : Ty → Val → Prop} {dflt : Field → Val} {b : Bool} (h1 : P (.option (.box (.named 0))) .none)
    (h2 : ∀ k, P (.named 0) (nest k)) (h3 : ∀ k, P (.box (.named 0)) (.box (nest k)))
    (h4 : ∀ k, P (.option (.box (.named 0))) (.some (.box (nest k)))) (k : Nat) : Holds exNest P dflt b (.named 0) (nest k) := by
  induction k with
  | zero => exact ⟨h2 0, h1, trivial⟩
  | succ k ih => exact ⟨h2 (k + 1), ⟨h4 k, h3 k, ih⟩, trivial⟩

theorem exNest_small : EnumsSmall exNest := by
  intro i vars h
  match i with
  | 0 => simp [exNest, lawEnv] at h
  | n + 1 => simp [exNest, lawEnv] at h

/-- The reader of `N` at `k` bytes `1`. -/
theorem nest_bin_deep {chk : Bool} {d : List Byte} (hd : d.length ≤ isizeMax) :
    ∀ n k o, At d o (List.replicate k 1) → n ≤ 3 * k → deBin exNest chk d n (.named 0) o = .oof := by
  intro n
  induction n using Nat.strongRecOn with
  | ind n ih =>
  intro k o ho hk
  match n, k with
  | 0, _ => rfl
  | 1, k + 1 =>
    rw [deBin, exNest_def]; rfl
  | 2, k + 1 =>
    rw [deBin, exNest_def]
    have e : readPrim chk d 1 o = .ok [1] (o + 1) := by
      have := readPrim_eq (chk := chk) (len := 1) (o := o) (by have := ho.le; simp at this; omega) hd
      have g : (d.drop o).take 1 = [1] := by
        have := ho.take
        simp only [List.replicate_succ] at this
        have := congrArg (List.take 1) this
        simpa [List.take_take] using this
      rw [g] at this; exact this
    refine M.bind_oof (M.bind_oof (f := fun v => deTys (deBin exNest chk d 1) [] >>= fun vs => Pure.pure (v :: vs)) ?_)
    rw [deBin]
    rw [M.bind_ok e]
    rfl
  | n + 3, k + 1 =>
    rw [deBin, exNest_def]
    have e : readPrim chk d 1 o = .ok [1] (o + 1) := by
      have := readPrim_eq (chk := chk) (len := 1) (o := o) (by have := ho.le; simp at this; omega) hd
      have g : (d.drop o).take 1 = [1] := by
        have := ho.take
        simp only [List.replicate_succ] at this
        have := congrArg (List.take 1) this
        simpa [List.take_take] using this
      rw [g] at this; exact this
    refine M.bind_oof (M.bind_oof (f := fun v => deTys (deBin exNest chk d (n + 2)) [] >>= fun vs => Pure.pure (v :: vs)) ?_)
    rw [deBin, M.bind_ok e]
    refine M.bind_oof (s := o + 1) ?_
    rw [deBin]
    refine M.bind_oof (ih n (by omega) k (o + 1) ?_ (by omega))
    obtain ⟨a, b, h1, h2⟩ := ho
    exact ⟨a ++ [1], b, by rw [h1]; simp [List.replicate_succ], by simp [h2]⟩

/-- **C91** (binary, no limit): nothing bounds the nesting: `k` bytes `1` and a `0` are a valid `N`, and reading it takes more
than `3 * k` open calls, for every `k` up to the size of a slice. -/
theorem C91_bin_nesting_unbounded (chk : Bool) (k : Nat) (hk : k < isizeMax) :
    Returns (fun n => deserializeBin exNest chk n (.named 0) (List.replicate k 1 ++ [0])) (.ok (nest k) (k + 1)) ∧
    ∀ n, n ≤ 3 * k → deserializeBin exNest chk n (.named 0) (List.replicate k 1 ++ [0]) = .oof := by
  constructor
  · have := C01_bin_round_trip_exact (chk := chk) (env := exNest) (lawEnv_lawful _ _) exNest_small (.named 0) (nest k) (nest_typed k)
      (nest_holds (by intro s n e; cases e) (by intro k s n e; cases k <;> cases e) (by intro k s n e; cases e)
        (by intro k s n e; cases e) k) (by rw [nest_bytes]; simp; omega)
    rw [nest_bytes] at this
    simpa using this
  · intro n hn
    exact nest_bin_deep (by simp; omega) n k 0 ⟨[], [0], by simp, rfl⟩ hn

/-- `k + 1` brackets, a word, `k + 1` closing brackets. -/
def bracketed (o c : Char) (w : List Char) (k : Nat) : List Char := List.replicate (k + 1) o ++ w ++ List.replicate (k + 1) c

theorem bracketed_succ (o c : Char) (w : List Char) (k : Nat) : bracketed o c w (k + 1) = o :: (bracketed o c w k ++ [c]) := by
  unfold bracketed
  rw [List.replicate_succ, List.replicate_succ' (n := k + 1) (a := c)]
  simp

theorem nest_json (k : Nat) : serializeJson exNest fl true (.named 0) (nest k) = some (bracketed '[' ']' (chars "null") k) := by
  have e : ∀ k, visitsEmptyArray exNest (.named 0) (nest k) = false := by
    intro k
    induction k with
    | zero => simp [nest, visitsEmptyArray, exNest_def, visitsEmptyTys]
    | succ k ih => simp [nest, visitsEmptyArray, exNest_def, visitsEmptyTys, ih]
  unfold serializeJson
  rw [if_neg (by simp [e])]
  congr 1
  induction k with
  | zero => simp [nest, serJson, exNest_def, serJsonTys, bracketed, chars, joinSep]
  | succ k ih =>
    rw [bracketed_succ, ← ih]
    simp [nest, serJson, exNest_def, serJsonTys, joinSep]

theorem nest_ron (k : Nat) : serializeRon exNest fl true (.named 0) (nest k) = some (bracketed '(' ')' (chars "None") k) := by
  have e : ∀ k, visitsEmptyArray exNest (.named 0) (nest k) = false := by
    intro k
    induction k with
    | zero => simp [nest, visitsEmptyArray, exNest_def, visitsEmptyTys]
    | succ k ih => simp [nest, visitsEmptyArray, exNest_def, visitsEmptyTys, ih]
  unfold serializeRon
  rw [if_neg (by simp [e])]
  congr 1
  induction k with
  | zero => simp [nest, serRon, exNest_def, serRonTys, bracketed, chars, joinSep, noneText]
  | succ k ih =>
    rw [bracketed_succ, ← ih]
    simp [nest, serRon, exNest_def, serRonTys, joinSep]

theorem nest_json_deep : ∀ n k (r : List Char) (st : PSt), st.tok = .blockOpen → st.cur.txt = List.replicate k '[' ++ r → n ≤ 3 * k →
    deJson exNest fl n (.named 0) st = .oof := by
  intro n
  induction n using Nat.strongRecOn with
  | ind n ih =>
  intro k r st ht hx hk
  match n, k with
  | 0, _ => rfl
  | n + 1, k + 1 =>
    have hT : TokAt (jNext fl) (['['] ++ (List.replicate k '[' ++ r)) .blockOpen (List.replicate k '[' ++ r) none none :=
      (JSpell.blockOpen (fl := fl)).tokAt trivial
    obtain ⟨c, h1, h2⟩ := hT st (by rw [hx]; simp [List.replicate_succ])
    have e : deJson exNest fl (n + 1) (.named 0) = (do
        blockOpen (jNext fl)
        let v ← deJson exNest fl n (.option (.box (.named 0)))
        blockClose (jNext fl)
        pure (.struct [v])) := by rw [deJson, exNest_def]; rfl
    have e1 : blockOpen (jNext fl) st = .ok () { st with cur := c } := by
      show (if st.tok = .blockOpen then jNext fl else errToken _ : PM Unit) st = _
      rw [if_pos ht, h2]
      simp [ht]
    rw [e, M.bind_ok e1]
    refine M.bind_oof ?_
    match n with
    | 0 => rfl
    | n + 1 =>
      rw [deJson]
      show (if st.tok = .null then _ else _ : PM Val) { st with cur := c } = _
      rw [if_neg (by rw [ht]; decide)]
      refine M.bind_oof ?_
      match n with
      | 0 => rfl
      | n + 1 =>
        rw [deJson]
        exact M.bind_oof (ih n (by omega) k r { st with cur := c } ht h1 (by omega))

theorem nest_ron_deep : ∀ n k (r : List Char) (st : PSt), st.tok = .parenOpen → st.cur.txt = List.replicate k '(' ++ r → n ≤ 3 * k →
    deRon exNest fl n (.named 0) st = .oof := by
  intro n
  induction n using Nat.strongRecOn with
  | ind n ih =>
  intro k r st ht hx hk
  match n, k with
  | 0, _ => rfl
  | n + 1, k + 1 =>
    have hT : TokAt (rNext fl) (['('] ++ (List.replicate k '(' ++ r)) .parenOpen (List.replicate k '(' ++ r) none none :=
      (RSpell.parenOpen (fl := fl)).tokAt trivial
    obtain ⟨c, h1, h2⟩ := hT st (by rw [hx]; simp [List.replicate_succ])
    have e1 : parenOpen (rNext fl) st = .ok () { st with cur := c } := by
      show (if st.tok = .parenOpen then rNext fl else errToken _ : PM Unit) st = _
      rw [if_pos ht, h2]
      simp [ht]
    rw [deRon, exNest_def]
    refine M.bind_oof ?_
    show (parenOpen (rNext fl) >>= fun _ => deTysEat (deRon exNest fl n) (eatCommaParen (rNext fl)) [.option (.box (.named 0))] >>=
      fun vs => parenClose (rNext fl) >>= fun _ => Pure.pure vs : PM (List Val)) st = _
    rw [M.bind_ok e1]
    refine M.bind_oof (M.bind_oof (M.bind_oof ?_))
    match n with
    | 0 => rfl
    | n + 1 =>
      rw [deRon]
      show (if atNone { st with cur := c } = true then _ else _ : PM Val) { st with cur := c } = _
      rw [if_neg (by simp [atNone, ht])]
      refine M.bind_oof ?_
      match n with
      | 0 => rfl
      | n + 1 =>
        rw [deRon]
        exact M.bind_oof (ih n (by omega) k r { st with cur := c } ht h1 (by omega))

/-- **C91** (JSON, no limit): `[[…[null]…]]` with `k + 1` brackets is a valid `N` for every `k`, and reading it takes more than
`3 * k` open calls. -/
theorem C91_json_nesting_unbounded (hfl : FloatLaws fl) (k : Nat) :
    Decodes (fun n => deserializeJson exNest fl n (.named 0) (bracketed '[' ']' (chars "null") k)) (nest k) ∧
    ∀ n, n ≤ 3 * k → deserializeJson exNest fl n (.named 0) (bracketed '[' ']' (chars "null") k) = .oof := by
  constructor
  · refine C21_json_roundtrip (lawEnv_lawful _ _) hfl ?_ (nest_skip k) (nest_typed k) ?_ (nest_json (fl := fl) k)
    · intro i d h
      match i with
      | 0 => simp [lawEnv] at h; subst h; trivial
      | n + 1 => simp [exNest, lawEnv] at h
    · refine nest_holds ?_ ?_ ?_ ?_ k
      · simp [JsonNodeOk]
      · intro k; cases k <;> simp [JsonNodeOk, nest]
      · intro k; simp [JsonNodeOk]
      · intro k
        simp only [JsonNodeOk, reduceCtorEq, false_implies, implies_true, true_and]
        intro t' w' e1 e2 hn
        injection e1 with e1; injection e2 with e2
        subst e1 e2
        generalize hv : nest k = v at hn
        generalize hu : Ty.named 0 = u at hn
        cases hn with
        | box h =>
          cases h with
          | transparent h _ => injection hu with hu; subst hu; simp [lawEnv] at h
          | _ => cases k <;> cases hv
  · intro n hn
    have hT : TokAt (jNext fl) (bracketed '[' ']' (chars "null") k) .blockOpen
        (List.replicate k '[' ++ (chars "null" ++ List.replicate (k + 1) ']')) none none := by
      have := (JSpell.blockOpen (fl := fl)).tokAt (r := List.replicate k '[' ++ (chars "null" ++ List.replicate (k + 1) ']')) trivial
      simpa [bracketed, List.replicate_succ (n := k) (a := '['), jtok, Lexeme.sb, Lexeme.ib] using this
    obtain ⟨c, h1, h2⟩ := hT (initSt jcol (bracketed '[' ']' (chars "null") k)) (initSt_txt _ _)
    show (jNext fl >>= fun _ => deJson exNest fl n (.named 0) : PM Val) _ = _
    rw [M.bind_ok h2]
    exact nest_json_deep n k _ _ rfl h1 hn

/-- **C91** (RON, no limit). -/
theorem C91_ron_nesting_unbounded (hfl : FloatLaws fl) (k : Nat) :
    Decodes (fun n => deserializeRon exNest fl n (.named 0) (bracketed '(' ')' (chars "None") k)) (nest k) ∧
    ∀ n, n ≤ 3 * k → deserializeRon exNest fl n (.named 0) (bracketed '(' ')' (chars "None") k) = .oof := by
  constructor
  · refine C40_ron_roundtrip (lawEnv_lawful _ _) hfl ?_ (nest_skip k) (nest_typed k) ?_ (nest_ron (fl := fl) k)
    · intro i d h
      match i with
      | 0 => simp [lawEnv] at h; subst h; trivial
      | n + 1 => simp [exNest, lawEnv] at h
    · refine nest_holds ?_ ?_ ?_ ?_ k
      · simp [RonNodeOk]
      · intro k; cases k <;> simp [RonNodeOk, nest]
      · intro k; simp [RonNodeOk]
      · intro k
        simp only [RonNodeOk, reduceCtorEq, false_implies, implies_true, true_and, ne_eq, not_false_eq_true, and_true]
        intro t' w' e1 e2 hn
        injection e1 with e1; injection e2 with e2
        subst e1 e2
        generalize hv : nest k = v at hn
        generalize hu : Ty.named 0 = u at hn
        cases hn with
        | box h =>
          cases h with
          | _ => cases k <;> cases hv
  · intro n hn
    have hT : TokAt (rNext fl) (bracketed '(' ')' (chars "None") k) .parenOpen
        (List.replicate k '(' ++ (chars "None" ++ List.replicate (k + 1) ')')) none none := by
      have := (RSpell.parenOpen (fl := fl)).tokAt (r := List.replicate k '(' ++ (chars "None" ++ List.replicate (k + 1) ')')) trivial
      simpa [bracketed, List.replicate_succ (n := k) (a := '('), rtok, Lexeme.sb, Lexeme.ib] using this
    obtain ⟨c, h1, h2⟩ := hT (initSt rcol (bracketed '(' ')' (chars "None") k)) (initSt_txt _ _)
    show (rNext fl >>= fun _ => deRon exNest fl n (.named 0) : PM Val) _ = _
    rw [M.bind_ok h2]
    exact nest_ron_deep n k _ _ rfl h1 hn

/-! ## Examples -/

/-- C91: the bounds for `Vec<E>`, `Conf` and `P`. -/
example : ∃ K, ∀ chk (d : List Byte), d.length ≤ isizeMax →
    ∃ r, r ≠ .oof ∧ ∀ n, K * (d.length + 1) ≤ n → deserializeBin exEnv chk n (.vec (.named 1)) d = r :=
  C91_bin_nesting_linear exEnv_prog exEnv_inhabitable (by simp [BinWf])

example : ∃ K, ∀ txt : List Char, ∃ r, (∀ n, K * (txt.length + 1) ≤ n → deserializeJson exJEnv toyFloat n (.named 3) txt = r) ∧
    (r = .oof → ∃ ls, JWhole toyFloat ls txt ∧ ¬ BracketsClosed ls) :=
  C91_json_nesting_linear toyFloat_laws exJEnv_wf exJEnv_productive (def_lt exConf_def)

example : ∃ K, ∀ txt : List Char, ∃ r, r ≠ .oof ∧
    ∀ n, K * (txt.length + 1) ≤ n → deserializeRon exNoNamed toyFloat n (.named 0) txt = r :=
  C91_ron_nesting_linear exNoNamed_wf rfl (by show (0 : Nat) < 2; decide)

/-- C91: `[[[null]]]`. -/
example : bracketed '[' ']' (chars "null") 2 = chars "[[[null]]]" := by decide

end NS
