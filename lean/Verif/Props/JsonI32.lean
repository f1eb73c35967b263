import Verif.Lemmas.JsonI32
import Verif.Lemmas.JsonStuck
import Verif.Props.JsonHalts
/-!
# Property C101: the bracket counter of skipped members

`whole_field` passes over the value of an unknown member by counting brackets in an `i32`.  `I32.deserializeJson env fl chk` is
the reader with that counter, `chk` telling whether the build has overflow checks; `deserializeJson env fl` is the reader all
other theorems speak of, whose counter has no bounds.
-/
namespace NS
variable {env : Env} {fl : FloatOps}

/-- **C101**: on a text of fewer than 2^31 - 1 characters the two readers are the same: same value, same error and place,
same panic, same endless loop, with and without overflow checks, for every program and type. -/
theorem C101_bracket_counter_suffices (env : Env) (fl : FloatOps) (chk : Bool) (n : Nat) (t : Ty) (txt : List Char)
    (h : txt.length < 2 ^ 31 - 1) : I32.deserializeJson env fl chk n t txt = deserializeJson env fl n t txt :=
  deserializeJson_i32 env fl chk n t txt h

/-! ## Beyond that -/

/-- One more `[`. -/
theorem next_open {r : List Char} {s : PSt} (h : s.cur.txt = '[' :: r) :
    ∃ s' : PSt, jNext fl s = .ok () s' ∧ s'.tok = .blockOpen ∧ s'.cur.txt = r ∧ s'.strbuf = s.strbuf := by
  obtain ⟨c, h1, h2⟩ := jTok_punct (fl := fl) (x := '[') (t := .blockOpen) (rest := r) rfl s h
  exact ⟨_, h2, rfl, h1, rfl⟩

/-- One turn of the loop at a `[`. -/
theorem open_step (chk : Bool) (n : Nat) (k : Int) {s : PSt} (ht : s.tok = .blockOpen) :
    I32.wholeLoop chk (jNext fl) (n + 1) k s = (I32.add chk k 1 >>= fun b => jNext fl >>= fun _ =>
      if b = 0 then pure () else I32.wholeLoop chk (jNext fl) n b : PM Unit) s := by
  have e1 : I32.wholeLoop chk (jNext fl) (n + 1) k s = (do
      let a ← if s.tok = .blockOpen ∨ s.tok = .curlyOpen then I32.add chk k 1 else pure k
      let b ← if s.tok = .blockClose ∨ s.tok = .curlyClose then I32.add chk a (-1) else pure a
      jNext fl
      if b = 0 then pure () else I32.wholeLoop chk (jNext fl) n b : PM Unit) s := rfl
  rw [e1, ht]
  simp
  rfl

/-- One turn of the loop at a `[` whose count is neither the last nor zero. -/
theorem turn {chk : Bool} {n : Nat} {k : Int} {s s' : PSt} (ht : s.tok = .blockOpen)
    (hk : -(2 ^ 31) ≤ k + 1 ∧ k + 1 < 2 ^ 31) (hz : k + 1 ≠ 0) (hs : jNext fl s = .ok () s') :
    I32.wholeLoop chk (jNext fl) (n + 1) k s = I32.wholeLoop chk (jNext fl) n (k + 1) s' := by
  rw [open_step _ _ _ ht, I32.add_fits hk]
  show (jNext fl >>= fun _ => if k + 1 = 0 then pure () else I32.wholeLoop chk (jNext fl) n (k + 1) : PM Unit) s = _
  rw [M.bind_ok hs, if_neg hz]

/-- Many `[`, none of them with a count beyond the `i32` or zero. -/
theorem turns {chk : Bool} {rest : List Char} (m : Nat) : ∀ (n : Nat) (k : Int) (s : PSt), s.tok = .blockOpen →
    s.cur.txt = List.replicate m '[' ++ rest → (0 ≤ k ∧ k + m < 2 ^ 31) ∨ (-(2 ^ 31) ≤ k ∧ k + m < 0) →
    ∃ s', I32.wholeLoop chk (jNext fl) (n + m) k s = I32.wholeLoop chk (jNext fl) n (k + m) s' ∧ s'.tok = .blockOpen ∧
      s'.cur.txt = rest ∧ s'.strbuf = s.strbuf := by
  induction m with
  | zero => intro n k s ht hx _; exact ⟨s, by simp, ht, by simpa using hx, rfl⟩
  | succ m ih =>
    intro n k s ht hx hk
    obtain ⟨s1, e1, t1, x1, b1⟩ := next_open (fl := fl) (s := s) (r := List.replicate m '[' ++ rest)
      (by rw [hx, List.replicate_succ]; rfl)
    have := turn (chk := chk) (n := n + m) (k := k) ht (by omega) (by omega) e1
    obtain ⟨s2, e2, t2, x2, b2⟩ := ih n (k + 1) s1 t1 x1 (by omega)
    refine ⟨s2, ?_, t2, x2, b2.trans b1⟩
    rw [show n + (m + 1) = n + m + 1 from rfl, this, e2, show k + 1 + (m : Int) = k + ((m + 1 : Nat) : Int) by omega]

/-- Up to the last bracket the `i32` can count. -/
theorem to_last {chk : Bool} {rest : List Char} {M n : Nat} {s : PSt} (ht : s.tok = .blockOpen)
    (hM : M + 1 = 2 ^ 31) (hx : s.cur.txt = List.replicate M '[' ++ rest) :
    ∃ s', I32.wholeField chk (jNext fl) (n + M) s = I32.wholeLoop chk (jNext fl) n (2 ^ 31 - 1) s' ∧ s'.tok = .blockOpen ∧
      s'.cur.txt = rest ∧ s'.strbuf = s.strbuf := by
  obtain ⟨s', e, h⟩ := turns (fl := fl) (chk := chk) (rest := rest) M n 0 s ht hx (by omega)
  refine ⟨s', ?_, h⟩
  rw [show (2 : Int) ^ 31 - 1 = 0 + (M : Int) by omega, ← e]
  show (match s.tok with
    | .f64 _ | .i64 _ | .str | .u64 _ | .bool _ | .null => jNext fl
    | .blockOpen | .curlyOpen => I32.wholeLoop chk (jNext fl) (n + M) 0
    | _ => NS.M.panic : PM Unit) s = _
  rw [ht]

/-- The counter's last step in a build with overflow checks. -/
theorem last_panics {n : Nat} {s : PSt} (ht : s.tok = .blockOpen) :
    I32.wholeLoop true (jNext fl) (n + 1) (2 ^ 31 - 1) s = .panic := by
  rw [open_step _ _ _ ht]
  rfl

/-- The counter's last step in a build without. -/
theorem last_wraps {n : Nat} {s s' : PSt} (ht : s.tok = .blockOpen) (hs : jNext fl s = .ok () s') :
    I32.wholeLoop false (jNext fl) (n + 1) (2 ^ 31 - 1) s = I32.wholeLoop false (jNext fl) n (-(2 ^ 31)) s' := by
  rw [open_step _ _ _ ht]
  show (jNext fl >>= fun _ => if (-(2 ^ 31) : Int) = 0 then pure () else I32.wholeLoop false (jNext fl) n (-(2 ^ 31)) : PM Unit) s = _
  rw [M.bind_ok hs, if_neg (by omega)]

/-- The reader of a struct arrives at the value of an unknown first member. -/
theorem i32_unknown {chk : Bool} {i : Nat} {fs cd nul} (hd : env.defs[i]? = some (.struct fs cd nul)) (hne : fs ≠ []) {key b : List Char}
    (hk : ∀ f ∈ fs, f.skip = false → f.jsonName ≠ key) (hq : StrLit b key) (post : List Char) :
    ∃ s₀ : PSt, s₀.tok = .colon ∧ s₀.cur.txt = post ∧ ∀ n, I32.deserializeJson env fl chk (n + 2) (.named i)
        ('{' :: '"' :: (b ++ '"' :: ':' :: post)) =
      (jNext fl >>= fun _ => I32.wholeField chk (jNext fl) (n + 1) >>= fun _ => eatCommaCurly (jNext fl) >>= fun _ =>
        whileIs .str (I32.jMember chk (jNext fl) (n + 1) (I32.deJson env fl chk (n + 1)) fs) n (fs.map fun _ => none) >>= fun acc =>
        curlyClose (jNext fl) >>= fun _ => unwrapFields cd fs acc >>= fun vs => pure (.struct vs) : PM Val) s₀ := by
  obtain ⟨c1, x1, e1⟩ := jTok_punct (fl := fl) (x := '{') (t := .curlyOpen) (rest := '"' :: (b ++ '"' :: ':' :: post)) rfl
    (initSt jcol ('{' :: '"' :: (b ++ '"' :: ':' :: post))) (by simp [initSt_txt])
  generalize hs1 : ({ cur := c1, tok := Tok.curlyOpen, strbuf := _, identbuf := _ } : PSt) = s1 at e1
  have x1' : s1.cur.txt = '"' :: (b ++ '"' :: ':' :: post) := by rw [← hs1]; exact x1
  have t1 : s1.tok = .curlyOpen := by rw [← hs1]
  obtain ⟨c2, x2, e2⟩ := jTok_quoted (fl := fl) (tail := ':' :: post) (hq.body (k := jcol)) s1 x1'
  generalize hs2 : ({ cur := c2, tok := Tok.str, strbuf := _, identbuf := _ } : PSt) = s2 at e2
  have x2' : s2.cur.txt = ':' :: post := by rw [← hs2]; exact x2
  have t2 : s2.tok = .str := by rw [← hs2]
  have b2 : s2.strbuf = key := by rw [← hs2]; rfl
  obtain ⟨c3, x3, e3⟩ := jTok_punct (fl := fl) (x := ':') (t := .colon) (rest := post) rfl s2 x2'
  generalize hs3 : ({ cur := c3, tok := Tok.colon, strbuf := _, identbuf := _ } : PSt) = s3 at e3
  have x3' : s3.cur.txt = post := by rw [← hs3]; exact x3
  have t3 : s3.tok = .colon := by rw [← hs3]
  refine ⟨s3, t3, x3', fun n => ?_⟩
  have hne' : fs.isEmpty = false := by
    cases fs with
    | nil => exact absurd rfl hne
    | cons => rfl
  have eo : ∀ {α : Type} (f : Unit → PM α), (curlyOpen (jNext fl) >>= f) s1 = f () s2 := by
    intro α f
    rw [M.bind_ok]
    show (if s1.tok = Tok.curlyOpen then jNext fl else errToken "{" : PM Unit) s1 = _
    rw [if_pos t1]; exact e2
  unfold I32.deserializeJson
  rw [M.bind_ok e1, I32.deJson]
  simp only [hd, I32.deJsonNamed, M.bind_assoc]
  rw [eo, whileIs, M.bind_assoc]
  show ((if s2.tok = .str then _ else _ : PM _) >>= _) s2 = _
  rw [if_pos t2, M.bind_assoc]
  unfold I32.jMember
  simp only [M.bind_assoc]
  show ((I32.jMemberValue chk (jNext fl) (n + 1) (I32.deJson env fl chk (n + 1)) fs (fs.map fun _ => none) s2.strbuf >>= _ : PM _)) s2 = _
  unfold I32.jMemberValue
  rw [b2, hne', if_neg (by simp), findField_none hk]
  simp only [nextColon, M.bind_assoc, M.pure_bind]
  rw [M.bind_ok e3]
  have : colon (jNext fl) s3 = jNext fl s3 := by
    show (if s3.tok = Tok.colon then jNext fl else errToken ":" : PM Unit) s3 = _
    rw [if_pos t3]
  rw [M.bind_def, this, ← M.bind_def]

theorem replicate_split {m M : Nat} (h : M < m) (rest : List Char) :
    List.replicate m '[' ++ rest = '[' :: (List.replicate M '[' ++ (List.replicate (m - (M + 1)) '[' ++ rest)) := by
  obtain ⟨d, rfl⟩ : ∃ d, m = M + 1 + d := ⟨m - (M + 1), by omega⟩
  rw [show M + 1 + d - (M + 1) = d by omega, List.replicate_add, List.replicate_succ, List.append_assoc]
  rfl

/-- **C101** (beyond that, with overflow checks): an unknown member whose value opens with 2^31 brackets panics. -/
theorem C101_bracket_counter_overflows {i : Nat} {fs cd nul} (hd : env.defs[i]? = some (.struct fs cd nul)) (hne : fs ≠ [])
    {key b : List Char} (hk : ∀ f ∈ fs, f.skip = false → f.jsonName ≠ key) (hq : StrLit b key) {m : Nat} (hm : 2 ^ 31 ≤ m)
    (rest : List Char) :
    ∃ N, ∀ n ≥ N, I32.deserializeJson env fl true n (.named i)
      ('{' :: '"' :: (b ++ '"' :: ':' :: (List.replicate m '[' ++ rest))) = .panic := by
  obtain ⟨L, hM⟩ : ∃ L, L + 1 = 2 ^ 31 := ⟨2 ^ 31 - 1, rfl⟩
  obtain ⟨s0, t0, x0, h0⟩ := i32_unknown (fl := fl) (chk := true) hd hne hk hq (List.replicate m '[' ++ rest)
  rw [replicate_split (M := L) (by omega)] at x0
  obtain ⟨s1, e1, t1, x1, _⟩ := next_open (fl := fl) x0
  refine ⟨L + 2, fun n hn => ?_⟩
  obtain ⟨n, rfl⟩ : ∃ k, n = k + L + 2 := ⟨n - L - 2, by omega⟩
  obtain ⟨s2, e2, t2, _⟩ := to_last (fl := fl) (chk := true) (n := n + 1) t1 hM x1
  rw [h0, M.bind_ok e1, show n + L + 1 = n + 1 + L by omega, M.bind_def, e2, last_panics t2]

/-- Nothing read: the defaults. -/
theorem unwrapFields_none {cd fs} (h : ∀ f ∈ fs, f.skip = true ∨ f.optSyn = true ∨ cd = true ∨ f.dfltAttr.isSome = true) (s : PSt) :
    unwrapFields cd fs (fs.map fun _ => none) s = .ok (fs.map fun f => f.dfltAttr.getD f.tyDefault) s := by
  induction fs with
  | nil => rfl
  | cons f fs ih =>
    have h1 : (f.skip || f.optSyn || cd || f.dfltAttr.isSome) = true := by
      have := h f (by simp)
      simp only [Bool.or_eq_true]
      rcases this with h | h | h | h <;> simp [h]
    have h2 := ih fun g hg => h g (by simp [hg])
    simp only [List.map_cons, unwrapFields, ite_self, h1, if_true]
    rw [NS.M.bind_ok (rfl : (pure (f.dfltAttr.getD f.tyDefault) : PM Val) s = .ok _ s), NS.M.bind_ok h2]
    rfl

/-- **C101** (beyond that, without overflow checks): the counter wraps, so an unknown member whose value is 2^32 opening
brackets and nothing else is passed over as if it were complete. -/
theorem C101_bracket_counter_wraps {i : Nat} {fs cd nul} (hd : env.defs[i]? = some (.struct fs cd nul)) (hne : fs ≠ [])
    {key b : List Char} (hk : ∀ f ∈ fs, f.skip = false → f.jsonName ≠ key) (hq : StrLit b key)
    (hdef : ∀ f ∈ fs, f.skip = true ∨ f.optSyn = true ∨ cd = true ∨ f.dfltAttr.isSome = true) {m : Nat} (hm : m = 2 ^ 32) :
    ∃ N, ∀ n ≥ N, ∃ s, I32.deserializeJson env fl false n (.named i)
      ('{' :: '"' :: (b ++ '"' :: ':' :: (List.replicate m '[' ++ ['}']))) =
        .ok (.struct (fs.map fun f => f.dfltAttr.getD f.tyDefault)) s := by
  obtain ⟨L, hL⟩ : ∃ L, L + 1 = 2 ^ 31 := ⟨2 ^ 31 - 1, rfl⟩
  obtain ⟨s0, t0, x0, h0⟩ := i32_unknown (fl := fl) (chk := false) hd hne hk hq (List.replicate m '[' ++ ['}'])
  rw [replicate_split (M := L) (by omega)] at x0
  obtain ⟨s1, e1, t1, x1, _⟩ := next_open (fl := fl) x0
  refine ⟨2 * L + 5, fun n hn => ?_⟩
  obtain ⟨n, rfl⟩ : ∃ k, n = k + 1 + L + 1 + L + 2 := ⟨n - L - L - 4, by omega⟩
  obtain ⟨s2, e2, t2, x2, _⟩ := to_last (fl := fl) (chk := false) (n := n + 1 + L + 1 + 1) t1 hL x1
  rw [replicate_split (M := L) (by omega), show m - (L + 1) - (L + 1) = 0 by omega] at x2
  obtain ⟨s3, e3, t3, x3, _⟩ := next_open (fl := fl) x2
  obtain ⟨s4, e4, t4, x4, _⟩ := turns (fl := fl) (chk := false) L (n + 1 + 1) (-(2 ^ 31)) s3 t3 x3 (.inr ⟨by omega, by omega⟩)
  obtain ⟨c5, x5, e5⟩ := jTok_punct (fl := fl) (x := '}') (t := .curlyClose) (rest := []) rfl s4 (by simpa using x4)
  generalize hs5 : ({ cur := c5, tok := Tok.curlyClose, strbuf := _, identbuf := _ } : PSt) = s5 at e5
  have t5 : s5.tok = .curlyClose := by rw [← hs5]
  have x5' : s5.cur.txt = [] := by rw [← hs5]; exact x5
  have e6 := jNext_end (fl := fl) x5'
  have hw : I32.wholeField false (jNext fl) (n + 1 + L + 1 + L + 1) s1 = .ok () s5 := by
    rw [show n + 1 + L + 1 + L + 1 = n + 1 + L + 1 + 1 + L by omega, e2, last_wraps t2 e3,
      show n + 1 + L + 1 = n + 1 + 1 + L by omega, e4, show -(2 ^ 31) + (L : Int) = -1 by omega, open_step _ _ _ t4]
    show (jNext fl >>= fun _ => pure () : PM Unit) s4 = _
    rw [NS.M.bind_ok e5]
    rfl
  have hc : eatCommaCurly (jNext fl) s5 = .ok () s5 := by
    show (if s5.tok = .comma then jNext fl else if s5.tok = .curlyClose then pure () else errToken ", or }" : PM Unit) s5 = _
    rw [t5]; rfl
  have hl : ∀ (body : List (Option Val) → PM (List (Option Val))) acc,
      whileIs .str body (n + 1 + L + 1 + L) acc s5 = .ok acc s5 := by
    intro body acc
    rw [show n + 1 + L + 1 + L = n + 1 + L + L + 1 by omega]
    show (if s5.tok = .str then (body acc >>= whileIs .str body (n + 1 + L + L)) else pure acc : PM _) s5 = _
    rw [t5]; rfl
  have he : curlyClose (jNext fl) s5 = jNext fl s5 := by
    show (if s5.tok = .curlyClose then jNext fl else errToken "}" : PM Unit) s5 = _
    rw [t5]; rfl
  rw [h0, NS.M.bind_ok e1, NS.M.bind_ok hw, NS.M.bind_ok hc, NS.M.bind_ok (hl _ _), NS.M.bind_ok (he.trans e6),
    NS.M.bind_ok (unwrapFields_none hdef _)]
  exact ⟨_, rfl⟩

/-- `struct S { #[nserde(default = 3)] a: u8, b: Option<u8> }`. -/
noncomputable def exI32 : Env :=
  lawEnv [.struct [{ name := chars "a", ty := .int .u8, dfltAttr := some (.int 3), tyDefault := .int 0 },
    { name := chars "b", ty := .option (.int .u8), optSyn := true, tyDefault := .none }] false false] []

theorem exI32_unknown : ∀ f ∈ ([{ name := chars "a", ty := .int .u8, dfltAttr := some (.int 3), tyDefault := .int 0 },
    { name := chars "b", ty := .option (.int .u8), optSyn := true, tyDefault := .none }] : List Field),
    f.skip = false → f.jsonName ≠ chars "k" := by
  intro f hf _
  simp only [List.mem_cons, List.not_mem_nil, or_false] at hf
  rcases hf with rfl | rfl <;> decide

/-- C101: a member passed over, with the counter that has bounds. -/
example (chk : Bool) : Decodes (fun n => I32.deserializeJson exI32 toyFloat chk n (.named 0) (chars "{\"k\":[[{}]],\"b\":1}"))
    (.struct [.int 3, .some (.int 1)]) := by
  have := json_ok (env := exI32) (fl := toyFloat) (t := .named 0) (inp := chars "{\"k\":[[{}]],\"b\":1}") 20
    (.struct [.int 3, .some (.int 1)]) (by decide +kernel)
  simpa only [C101_bracket_counter_suffices exI32 toyFloat chk _ (.named 0) (chars "{\"k\":[[{}]],\"b\":1}") (by decide)] using this

/-- C101: `{"k":[[[...`, 2^31 of them or more. -/
example (m : Nat) (hm : 2 ^ 31 ≤ m) : ∃ N, ∀ n ≥ N, I32.deserializeJson exI32 toyFloat true n (.named 0)
    ('{' :: '"' :: (chars "k" ++ '"' :: ':' :: (List.replicate m '[' ++ []))) = .panic :=
  C101_bracket_counter_overflows (i := 0) rfl (by simp) exI32_unknown (.plain (by decide) (by decide) (by decide) .nil) hm []

/-- C101: `{"k":[[[...[}`, 2^32 of them, is read as `S { a: 3, b: None }`. -/
example (m : Nat) (hm : m = 2 ^ 32) : ∃ N, ∀ n ≥ N, ∃ s, I32.deserializeJson exI32 toyFloat false n (.named 0)
    ('{' :: '"' :: (chars "k" ++ '"' :: ':' :: (List.replicate m '[' ++ ['}']))) = .ok (.struct [.int 3, .none]) s :=
  C101_bracket_counter_wraps (i := 0) rfl (by simp) exI32_unknown (.plain (by decide) (by decide) (by decide) .nil)
    (by intro f hf; simp only [List.mem_cons, List.not_mem_nil, or_false] at hf; rcases hf with rfl | rfl <;> simp) hm

end NS
