import Verif.Lemmas.JsonStuck
import Verif.Props.JsonShapes
/-! # Properties C31 and C32: JSON parsing terminates and does not panic

`deserializeJson env fl n t txt` is the reader of type `t` run with fuel `n`; it returns on a text if
its outcome is the same, and not "out of fuel", for all large `n`. -/
namespace NS
variable {env : Env} {fl : FloatOps}

/-! ## C31 -/

/-- **C31** (termination): on every text the reader returns, unless
the text consists of JSON lexemes among which some bracket is not closed. -/
theorem C31_json_terminates (hfl : FloatLaws fl) (hw : ProgWf env) (hp : Productive env) {t : Ty} (ht : TyWf env t)
    (txt : List Char) :
    ∃ r, Returns (fun n => deserializeJson env fl n t txt) r ∧
      (r = .oof → ∃ ls, JWhole fl ls txt ∧ ¬ BracketsClosed ls) := by
  obtain ⟨N, o, h1, _, h3⟩ := read_outcome (scan_reading hfl txt) hw hp t ht txt
    (by rw [initSt_txt]; exact .nil) (D := True) (.inl trivial)
  exact ⟨o, ⟨N, h1⟩, h3⟩

theorem full_outcome (hw : ProgWf env) (hp : Productive env) {t : Ty} (ht : TyWf env t) {J : JTree} {txt : List Char}
    (hx : JText fl J txt) {D : Prop} (hD : D ∨ NoTime env ∧ noTime t = true) :
    ∃ r, Returns (fun n => deserializeJson env fl n t txt) r ∧ r ≠ .oof ∧
      (r = .panic → D ∧ ∃ v, .num (.nat v) ∈ J.lexemes ∧ 2 ^ 63 ≤ v + 1) := by
  obtain ⟨w, hlw, hdoc⟩ := hx
  obtain ⟨N, o, h1, h2, h3⟩ := read_outcome (full_reading (ls := J.lexemes) hlw) hw hp t ht txt
    (by rw [initSt_txt]; exact ⟨_, rfl, hdoc⟩) hD
  obtain ⟨b1, _, b3⟩ := J.balanced
  refine ⟨o, ⟨N, h1⟩, fun he => ?_, fun he => ?_⟩
  · obtain ⟨ls, rfl, g⟩ := h3 he
    exact g b1
  · rcases h2 he with (⟨ls, l, s, ⟨post, g1, _⟩, g2⟩ | ⟨ls, g⟩) | ⟨hd, ls, v, s, ⟨post, g1, _⟩, g2⟩
    · obtain ⟨l', r, k1, k2⟩ := b3 ls (l :: post) (by simpa using g1)
      injection k1 with k1
      subst k1
      rw [g2] at k2; cases k2
    · obtain ⟨l', r, k1, _⟩ := b3 ls [] (by simpa using g.symm)
      cases k1
    · exact ⟨hd, v, by rw [g1]; simp, g2⟩

/-- **C31**: on every JSON value, whatever its type, the reader of any type returns. -/
theorem C31_json_terminates_on_values (hw : ProgWf env) (hp : Productive env) {t : Ty} (ht : TyWf env t) {J : JTree}
    {txt : List Char} (hx : JText fl J txt) :
    ∃ r, Returns (fun n => deserializeJson env fl n t txt) r ∧ r ≠ .oof := by
  obtain ⟨r, h1, h2, _⟩ := full_outcome hw hp ht hx (D := True) (.inl trivial)
  exact ⟨r, h1, h2⟩

/-- **C31**: in a program without named fields every reader returns on every text. -/
theorem C31_json_terminates_without_named_fields (hw : ProgWf env) (hp : Productive env) (hn : NoNamed env) {t : Ty}
    (ht : TyWf env t) (txt : List Char) :
    ∃ r, Returns (fun n => deserializeJson env fl n t txt) r ∧ r ≠ .oof := by
  obtain ⟨N, o, g1, _, g3⟩ := json_ends (H := False) jNext_lexer hw hp (.inl hn) (D := True) (fun _ => .inl trivial) ht
    (.inl trivial) (input := txt) (by intro h; simp [initSt] at h)
  exact ⟨o, ⟨N, g1⟩, g3⟩

/-- **C31** (the exception): on an object whose first key is not a field's name and is followed by a
bracket that is not closed, the reader of any struct with fields never returns. -/
theorem C31_json_hangs {i : Nat} {fs cd nul} (hd : env.defs[i]? = some (.struct fs cd nul)) (hne : fs ≠ []) {key : List Char}
    (hk : ∀ f ∈ fs, f.skip = false → f.jsonName ≠ key) {b : Lexeme} {post : List Lexeme} {txt : List Char}
    (hx : JFull fl (.punct .curlyOpen :: .str key :: .punct .colon :: b :: post) txt)
    (hb : b = .punct .blockOpen ∨ b = .punct .curlyOpen) (hn : NeverClosed b post) :
    Diverges (fun n => deserializeJson env fl n (.named i) txt) :=
  fun n => struct_unknown_open hd hne hk hx (by rcases hb with rfl | rfl <;> rfl) hn n

theorem exConf_def : exJEnv.defs[3]? = some exConf := rfl

theorem exConf_unknown : ∀ f ∈ [
    ({ name := chars "name", ty := .str, rename := some (chars "n"), tyDefault := .str [] } : Field),
    { name := chars "retries", ty := .int .u8, dfltAttr := some (.int 3), tyDefault := .int 0 },
    { name := chars "level", ty := .option (.named 2), optSyn := true, tyDefault := .none },
    { name := chars "cache", ty := .int .u64, skip := true, tyDefault := .int 0 },
    { name := chars "ratio", ty := .f64, tyDefault := .f64 0 } ], f.skip = false → f.jsonName ≠ chars "k" := by
  intro f hf _
  simp only [List.mem_cons, List.not_mem_nil, or_false] at hf
  rcases hf with rfl | rfl | rfl | rfl | rfl <;> decide

/-- C31: the text `{"k":[` makes the reader of `Conf` hang. -/
example : Diverges (fun n => deserializeJson exJEnv toyFloat n (.named 3) (chars "{\"k\":[")) := by
  refine C31_json_hangs (i := 3) (key := chars "k") (b := .punct .blockOpen) (post := []) exConf_def (by simp) exConf_unknown
    ⟨[], .inl .nil, ?_⟩ (.inl rfl) ?_
  · refine .cons (w := []) .nil .curlyOpen trivial (.cons (w := []) (s := chars "\"k\"") .nil ?_ trivial
      (.cons (w := []) .nil .colon trivial (.cons (w := []) .nil .blockOpen trivial .nil)))
    exact .str (b := ['k']) (.plain (by decide) (by decide) (by decide) .nil)
  · intro mid rest h
    have : mid = [] := by
      cases mid with
      | nil => rfl
      | cons => simp at h
    subst this
    decide

/-- C31: the hypothesis of the theorem on values: `{"k":[1]}` is a JSON value. -/
example : ∃ r, Returns (fun n => deserializeJson exJEnv toyFloat n (.named 3) (chars " { \"k\" : [ 1 ] }")) r ∧ r ≠ .oof :=
  C31_json_terminates_on_values (fl := toyFloat) (t := .named 3) exJEnv_wf exJEnv_productive (def_lt exConf_def)
    (J := .obj [(.str (chars "k"), .arr [.num (.nat 1)] false)] false)
    (jtext_spaced [.punct .curlyOpen, .str (chars "k"), .punct .colon, .punct .blockOpen, .num (.nat 1),
      .punct .blockClose, .punct .curlyClose] (by simp [JTree.lexemes, commaLexemes, chars]) (by decide))

/-- A program without named fields: `struct P(u8, Option<P'>)`, `enum E { A, B(P) }`. -/
noncomputable def exNoNamed : Env :=
  lawEnv [.tuple [.int .u8, .vec (.named 1)] false, .enum [⟨chars "A", none, .unit⟩, ⟨chars "B", none, .tuple [.named 0, .dur]⟩]] []

theorem exNoNamed_wf : ProgWf exNoNamed := by
  refine ⟨?_, by intro p hp; simp [exNoNamed, lawEnv] at hp⟩
  intro d hd t ht
  simp only [exNoNamed, lawEnv, List.mem_cons, List.not_mem_nil, or_false] at hd
  rcases hd with rfl | rfl
  · simp [Def.tys] at ht; rcases ht with rfl | rfl <;> simp [TyWf, IntKind.textual, exNoNamed, lawEnv]
  · simp [Def.tys] at ht; rcases ht with rfl | rfl <;> simp [TyWf, exNoNamed, lawEnv]

theorem exNoNamed_productive : Productive exNoNamed := by
  refine ⟨exRank, fun t => Nat.lt_succ_self _, fun t => Nat.lt_succ_self _, ?_, ?_⟩
  · intro i t h
    match i with
    | 0 => simp [exNoNamed, lawEnv] at h
    | 1 => simp [exNoNamed, lawEnv] at h
    | n + 2 => simp [exNoNamed, lawEnv] at h
  · intro i px h
    simp [exNoNamed, lawEnv] at h

/-- C31: on every text, `P` above is read or rejected. -/
example (txt : List Char) : ∃ r, Returns (fun n => deserializeJson exNoNamed toyFloat n (.named 0) txt) r ∧ r ≠ .oof := by
  refine C31_json_terminates_without_named_fields exNoNamed_wf exNoNamed_productive ?_ (by show (0 : Nat) < 2; decide) txt
  intro d hd
  simp only [exNoNamed, lawEnv, List.mem_cons, List.not_mem_nil, or_false] at hd
  rcases hd with rfl | rfl
  · exact ⟨by simp, by simp⟩
  · refine ⟨by simp, ?_⟩
    intro vars hv v hm fs hfs
    injection hv with hv
    subst hv
    simp only [List.mem_cons, List.not_mem_nil, or_false] at hm
    rcases hm with rfl | rfl <;> simp at hfs

/-! ## C32 -/

/-- **C32** (where it can panic; `C32_json_panics` and the examples below show that it does): if a reader panics
then somewhere in the text a colon is not followed by a value, or there is an integer of at least
`2^63 - 1` and the program uses `Duration` or `SystemTime`. -/
theorem C32_json_panics_only (hfl : FloatLaws fl) (hw : ProgWf env) (hp : Productive env) {t : Ty} (ht : TyWf env t)
    (txt : List Char) (h : Panics (fun n => deserializeJson env fl n t txt)) :
    ColonWithoutValue fl txt ∨ (¬ (NoTime env ∧ noTime t = true) ∧ HugeInteger fl txt) := by
  obtain ⟨N, o, h1, h2, h3⟩ := read_outcome (scan_reading hfl txt) hw hp t ht txt
    (by rw [initSt_txt]; exact .nil) (D := ¬ (NoTime env ∧ noTime t = true))
    (by by_cases h : NoTime env ∧ noTime t = true <;> simp [h])
  obtain ⟨M, h⟩ := h
  have : o = .panic := by rw [← h1 (max N M) (by omega)]; exact h _ (by omega)
  rcases h2 this with h | ⟨h, h'⟩
  · left
    rcases h with ⟨ls, l, s, g⟩ | ⟨ls, g⟩
    · exact .inl ⟨ls, l, _, g⟩
    · exact .inr ⟨ls, g⟩
  · right
    obtain ⟨ls, v, s, g⟩ := h'
    exact ⟨h, ls, v, _, g⟩

/-- **C32**: on every JSON value without integers of `2^63 - 1` or more, the reader of any type returns
`Ok` or `Err`; with such integers too, if neither `Duration` nor `SystemTime` is used. -/
theorem C32_json_no_panic_on_values (hw : ProgWf env) (hp : Productive env) {t : Ty} (ht : TyWf env t) {J : JTree}
    {txt : List Char} (hx : JText fl J txt)
    (h : (∀ v, .num (.nat v) ∈ J.lexemes → v < 2 ^ 63 - 1) ∨ NoTime env ∧ noTime t = true) :
    (∃ v, Decodes (fun n => deserializeJson env fl n t txt) v) ∨ Rejects (fun n => deserializeJson env fl n t txt) := by
  obtain ⟨r, ⟨N, h1⟩, h2, h3⟩ := full_outcome hw hp ht hx (D := ∀ v, .num (.nat v) ∈ J.lexemes → v < 2 ^ 63 - 1) h
  cases r with
  | ok v s => exact .inl ⟨v, N, fun n hn => ⟨s, h1 n hn⟩⟩
  | err e s => exact .inr ⟨N, fun n hn => ⟨e, s, h1 n hn⟩⟩
  | panic =>
    obtain ⟨hd, v, g1, g2⟩ := h3 rfl
    have := hd v g1
    omega
  | oof => exact absurd rfl h2

/-- **C32**: in a program without named fields, `Duration` and `SystemTime`, every reader returns `Ok` or
`Err` on every text. -/
theorem C32_json_no_panic_without_named_fields (hw : ProgWf env) (hp : Productive env) (hn : NoNamed env) (hT : NoTime env)
    {t : Ty} (ht : TyWf env t) (htt : noTime t = true) (txt : List Char) :
    (∃ v, Decodes (fun n => deserializeJson env fl n t txt) v) ∨ Rejects (fun n => deserializeJson env fl n t txt) := by
  obtain ⟨N, o, g1, g2, g3⟩ := json_ends (P := False) (H := False) jNext_lexer hw hp (.inl hn) (D := False) (fun h => h.elim) ht
    (.inr ⟨hT, htt⟩) (input := txt) (by intro h; simp [initSt] at h)
  cases o with
  | ok v s => exact .inl ⟨v, N, fun n hn => ⟨s, g1 n hn⟩⟩
  | err e s => exact .inr ⟨N, fun n hn => ⟨e, s, g1 n hn⟩⟩
  | panic => exact (g2 rfl).elim
  | oof => exact (g3 rfl).elim

/-- **C32** (the exception): an object whose first key is not a field's name and is followed by
something that cannot begin a value makes the reader of any struct with fields panic. -/
theorem C32_json_panics {i : Nat} {fs cd nul} (hd : env.defs[i]? = some (.struct fs cd nul)) (hne : fs ≠ []) {key : List Char}
    (hk : ∀ f ∈ fs, f.skip = false → f.jsonName ≠ key) {b : Lexeme} {txt rest : List Char}
    (hx : JDoc fl [.punct .curlyOpen, .str key, .punct .colon, b] txt rest) (hb : b.startsValue = false) :
    Panics (fun n => deserializeJson env fl n (.named i) txt) :=
  ⟨2, fun n hn => struct_unknown_bad hd hne hk hx hb n hn⟩

/-- C32: the text `{"k":}` makes the reader of `Conf` panic. -/
example : Panics (fun n => deserializeJson exJEnv toyFloat n (.named 3) (chars "{\"k\":}")) := by
  refine C32_json_panics (i := 3) (key := chars "k") (b := .punct .curlyClose) (rest := []) exConf_def (by simp) exConf_unknown
    ?_ rfl
  refine .cons (w := []) .nil .curlyOpen trivial (.cons (w := []) (s := chars "\"k\"") .nil ?_ trivial
    (.cons (w := []) .nil .colon trivial (.cons (w := []) .nil .curlyClose trivial .nil)))
  exact .str (b := ['k']) (.plain (by decide) (by decide) (by decide) .nil)

/-- C32: a `SystemTime` of `2^63` seconds panics. -/
example : Panics (fun n => deserializeJson exJEnv toyFloat n .time (chars "{\"secs\":9223372036854775808,\"nanos\":0}")) :=
  json_panic 9 (by decide +kernel)

/-- C32: a `Duration` of `u64::MAX` seconds and `10^9` nanoseconds panics. -/
example : Panics (fun n => deserializeJson exJEnv toyFloat n .dur (chars "{\"secs\":18446744073709551615,\"nanos\":1000000000}")) :=
  json_panic 9 (by decide +kernel)

/-- C32: the hypotheses of the theorem on values. -/
example : (∃ v, Decodes (fun n => deserializeJson exJEnv toyFloat n (.named 3) (chars " { \"k\" : [ 1 ] }")) v) ∨
    Rejects (fun n => deserializeJson exJEnv toyFloat n (.named 3) (chars " { \"k\" : [ 1 ] }")) :=
  C32_json_no_panic_on_values (fl := toyFloat) (t := .named 3) exJEnv_wf exJEnv_productive (def_lt exConf_def)
    (J := .obj [(.str (chars "k"), .arr [.num (.nat 1)] false)] false)
    (jtext_spaced [.punct .curlyOpen, .str (chars "k"), .punct .colon, .punct .blockOpen, .num (.nat 1),
      .punct .blockClose, .punct .curlyClose] (by simp [JTree.lexemes, commaLexemes, chars]) (by decide))
    (.inl fun v hv => by simp [JTree.lexemes, commaLexemes] at hv; subst hv; decide)

/-- C32: `Vec<(u8, BTreeMap<String, Option<f64>>)>` is read or rejected on every text. -/
example (txt : List Char) :
    (∃ v, Decodes (fun n => deserializeJson (lawEnv [] []) toyFloat n (.vec (.pair (.int .u8) (.bmap .str (.option .f64)))) txt) v) ∨
    Rejects (fun n => deserializeJson (lawEnv [] []) toyFloat n (.vec (.pair (.int .u8) (.bmap .str (.option .f64)))) txt) := by
  refine C32_json_no_panic_without_named_fields ⟨?_, ?_⟩ ⟨exRank, fun t => Nat.lt_succ_self _, fun t => Nat.lt_succ_self _, ?_, ?_⟩
    ?_ ⟨?_, ?_⟩ ?_ rfl txt <;> simp [lawEnv, TyWf, IntKind.textual, NoNamed]

end NS
