import Verif.Lemmas.JsonRead3
import Verif.Props.RonWhole
/-! # Properties C66, C67: what JSON texts mean, for every text -/
namespace NS
variable {env : Env} {fl : FloatOps}

/-! ## C66 -/

/-- **C66**: on *every* text, whether JSON or not, the reader returns `v` exactly if `v` is what the text stands
for: the text begins with lexemes that denote `v` at that type and are followed by the end of the text or a
legible lexeme (or with two strings that stand for `v`, `StrPair`). -/
theorem C66_json_reads_exactly (hfl : FloatLaws fl) (hk : LawfulKeys env) (hd : DistinctProg env) (t : Ty)
    (txt : List Char) (v : Val) :
    Decodes (fun n => deserializeJson env fl n t txt) v ↔ JsonReading env fl t txt v := by
  constructor
  · rintro ⟨n, h⟩
    obtain ⟨s, e⟩ := h n (Nat.le_refl _)
    exact json_sound hfl hk hd e
  · rintro (⟨ls, hx, h⟩ | ⟨a, b, rest, hx, h⟩)
    · exact json_decodes_of_begins hfl hk hd hx h
    · exact json_decodes_of_strs hd hx h

/-- **C66** (any budget): whatever a run of the reader returns is what the text stands for. -/
theorem C66_json_reads_only (hfl : FloatLaws fl) (hk : LawfulKeys env) (hd : DistinctProg env) {t : Ty}
    {txt : List Char} {n : Nat} {v : Val} {s : PSt} (h : deserializeJson env fl n t txt = .ok v s) :
    JsonReading env fl t txt v :=
  json_sound hfl hk hd h

/-- **C66** (one reading): a text stands for at most one value. -/
theorem C66_json_reading_unique (hfl : FloatLaws fl) (hk : LawfulKeys env) (hd : DistinctProg env) {t : Ty}
    {txt : List Char} {v v' : Val} (h : JsonReading env fl t txt v) (h' : JsonReading env fl t txt v') : v = v' := by
  obtain ⟨N, a⟩ := (C66_json_reads_exactly hfl hk hd t txt v).2 h
  obtain ⟨N', b⟩ := (C66_json_reads_exactly hfl hk hd t txt v').2 h'
  obtain ⟨s, a⟩ := a (max N N') (Nat.le_max_left _ _)
  obtain ⟨s', b⟩ := b (max N N') (Nat.le_max_right _ _)
  rw [a] at b
  exact (Out.ok.inj b).1

/-- **C66** (JSON values): a text that is a JSON value stands for what that value means. -/
theorem C66_json_reading_of_value (hfl : FloatLaws fl) (hw : ProgWf env) (hp : Productive env) (hk : LawfulKeys env)
    (hd : DistinctProg env) {t : Ty} (ht : TyWf env t) {J : JTree} {txt : List Char} (hx : JText fl J txt) (v : Val) :
    JsonReading env fl t txt v ↔ JsonMeans env fl t J v :=
  (C66_json_reads_exactly hfl hk hd t txt v).symm.trans (C63_json_reads_meaning hw hp hk hd ht hx v)

/-! ## C67 -/

/-- **C67** (one direction, for every text): a rejected text stands for nothing. -/
theorem C67_json_rejected_means_nothing (hfl : FloatLaws fl) (hk : LawfulKeys env) (hd : DistinctProg env) {t : Ty} {txt : List Char}
    (h : Rejects (fun n => deserializeJson env fl n t txt)) : ¬ ∃ v, JsonReading env fl t txt v := by
  rintro ⟨v, hv⟩
  obtain ⟨N, a⟩ := h
  obtain ⟨N', b⟩ := (C66_json_reads_exactly hfl hk hd t txt v).2 hv
  obtain ⟨e, s, a⟩ := a (max N N') (Nat.le_max_left _ _)
  obtain ⟨s', b⟩ := b (max N N') (Nat.le_max_right _ _)
  rw [a] at b
  cases b

/-- **C67**: the reader rejects a text with an error exactly if the text stands for no value — unless a bracket is
never closed, a colon is not followed by a value, or there is an integer of `2^63 - 1` or more and the program uses
`Duration` or `SystemTime` (C31, C32). -/
theorem C67_json_rejects_iff (hfl : FloatLaws fl) (hk : LawfulKeys env) (hd : DistinctProg env) (hw : ProgWf env)
    (hp : Productive env) {t : Ty} (ht : TyWf env t) (txt : List Char)
    (h1 : ∀ ls, JWhole fl ls txt → BracketsClosed ls) (h2 : ¬ ColonWithoutValue fl txt)
    (h3 : ¬ HugeInteger fl txt ∨ NoTime env ∧ noTime t = true) :
    Rejects (fun n => deserializeJson env fl n t txt) ↔ ¬ ∃ v, JsonReading env fl t txt v := by
  refine ⟨C67_json_rejected_means_nothing hfl hk hd, fun hn => ?_⟩
  obtain ⟨r, ⟨N, hr⟩, ho⟩ := C31_json_terminates hfl hw hp ht txt
  cases r with
  | ok v s => exact absurd ⟨v, C66_json_reads_only hfl hk hd (hr N (Nat.le_refl _))⟩ hn
  | err e s => exact ⟨N, fun n hn => ⟨e, s, hr n hn⟩⟩
  | panic =>
    exfalso
    rcases C32_json_panics_only hfl hw hp ht txt ⟨N, hr⟩ with h | ⟨h, h'⟩
    · exact h2 h
    · rcases h3 with h3 | h3
      · exact h3 h'
      · exact h h3
  | oof =>
    obtain ⟨ls, g1, g2⟩ := ho rfl
    exact absurd (h1 ls g1) g2

/-- **C67** (no exceptions): in a program without named fields, `Duration` and `SystemTime`, *every* text is read as
the value it stands for, or is rejected with an error because it stands for none. -/
theorem C67_json_rejects_iff_without_named_fields (hfl : FloatLaws fl) (hk : LawfulKeys env) (hd : DistinctProg env)
    (hw : ProgWf env) (hp : Productive env) (hn : NoNamed env) (hT : NoTime env) {t : Ty} (ht : TyWf env t)
    (htt : noTime t = true) (txt : List Char) :
    Rejects (fun n => deserializeJson env fl n t txt) ↔ ¬ ∃ v, JsonReading env fl t txt v := by
  refine ⟨C67_json_rejected_means_nothing hfl hk hd, fun hno => ?_⟩
  rcases C32_json_no_panic_without_named_fields (fl := fl) hw hp hn hT ht htt txt with ⟨v, h⟩ | h
  · exact absurd ⟨v, (C66_json_reads_exactly hfl hk hd t txt v).1 h⟩ hno
  · exact h

/-- **C67** (trailing text): what follows a value is not read beyond one lexeme, which must be legible. -/
theorem C67_json_trailing (hfl : FloatLaws fl) (hk : LawfulKeys env) (hd : DistinctProg env) {t : Ty} {ls : List Lexeme}
    {txt rest : List Char} {l : Lexeme} {v : Val} (hv : JsonSays env fl t ls v) (hx : JScan fl (ls ++ [l]) txt rest)
    (hl : ¬ ((∃ a, ls = [.str a]) ∧ ∃ b, l = .str b)) :
    Decodes (fun n => deserializeJson env fl n t txt) v :=
  json_decodes_of_begins hfl hk hd (.inr ⟨l, rest, hx, hl⟩) hv

/-! ## Examples -/

theorem json_rejects (n : Nat) {t : Ty} {inp : List Char}
    (h : (deserializeJson env fl n t inp).errSat (fun _ _ => true) = true) : Rejects (fun n => deserializeJson env fl n t inp) := by
  obtain ⟨e, s, h, _⟩ := Out.errSat_spec h
  exact (rejectsWith_of_run (l := e.line) (c := e.col) (why := e.msg) h).rejects

/-- `"x" "A"` is read as the variant `A`: the first string is not looked at. -/
example : JsonReading exJEnv toyFloat (.named 1) (chars "\"x\" \"A\"") (.variant 0 []) :=
  (C66_json_reads_exactly toyFloat_laws exJEnv_lawful exJEnv_distinct _ _ _).1 (json_ok 9 _ (by decide +kernel))

/-- Directly: the two strings stand for `A`. -/
example : JsonReading exJEnv toyFloat (.named 1) (chars "\"x\" \"A\"") (.variant 0 []) := by
  refine .inr ⟨chars "x", chars "A", [], ?_, ?_⟩
  · exact JScan.cons (w := []) (s := chars "\"x\"") (r := chars " \"A\"") .nil (.str (b := ['x']) (.plain (by decide) (by decide) (by decide) .nil))
      (fun _ _ => trivial) (JScan.cons (w := chars " ") (s := chars "\"A\"") (r := []) (.space (.inl rfl) .nil)
        (.str (b := ['A']) (.plain (by decide) (by decide) (by decide) .nil)) (fun _ _ => trivial) .nil)
  · exact .variant (i := 1) (var := { name := chars "A", shape := .unit }) rfl rfl rfl

/-- The value of an unknown member need not be JSON: in `{"n":"y","k":[[}:,"z" 1],"ratio":2}` the brackets do
not even match. -/
example : JsonReading exJEnv toyFloat (.named 3) (chars "{\"n\":\"y\",\"k\":[[}:,\"z\" 1],\"ratio\":2}")
    (.struct [.str (chars "y"), .int 3, .none, .int 0, .f64 2]) :=
  (C66_json_reads_exactly toyFloat_laws exJEnv_lawful exJEnv_distinct _ _ _).1 (json_ok 30 _ (by decide +kernel))

/-- What is passed over there. -/
example : PassedOver [.punct .blockOpen, .punct .blockOpen, .punct .curlyClose, .punct .colon, .punct .comma, .str (chars "z"),
    .num (.nat 1), .punct .blockClose] := by
  refine .inr ⟨_, _, rfl, rfl, rfl, ?_⟩
  intro p q e hp hq
  have key : ∀ k, k < 8 → 0 < k → depth (List.take k [.punct .blockOpen, .punct .blockOpen, .punct .curlyClose, .punct .colon, .punct .comma,
    .str (chars "z"), .num (.nat 1), .punct .blockClose]) ≠ 0 := by decide
  have hl := congrArg List.length e
  simp at hl
  have h1 : 0 < p.length := List.length_pos_iff.2 hp
  have h2 : 0 < q.length := List.length_pos_iff.2 hq
  have := key p.length (by omega) h1
  rw [e, List.take_left'] at this
  · exact this
  · rfl

/-- `[1, 2] }` is read as the vector `[1, 2]`; it stands for nothing else. -/
example (v : Val) : JsonReading exJEnv toyFloat (.vec (.int .u8)) (chars "[1, 2] }") v ↔ v = .seq [.int 1, .int 2] := by
  have h := (C66_json_reads_exactly toyFloat_laws exJEnv_lawful exJEnv_distinct (.vec (.int .u8)) (chars "[1, 2] }")
    (.seq [.int 1, .int 2])).1 (json_ok 9 _ (by decide +kernel))
  exact ⟨fun h' => C66_json_reading_unique toyFloat_laws exJEnv_lawful exJEnv_distinct h' h, fun e => e ▸ h⟩

/-- C66 on a JSON value: `["A", {"B": [3, "x",]}]` as a `Vec<E>`. -/
example : JsonReading exJEnv toyFloat (.vec (.named 1)) (chars " [ \"A\" , { \"B\" : [ 3 , \"x\" , ] } ]")
    (.seq [.variant 0 [], .variant 1 [.int 3, .str (chars "x")]]) :=
  (C66_json_reading_of_value toyFloat_laws exJEnv_wf exJEnv_productive exJEnv_lawful exJEnv_distinct
    (t := .vec (.named 1)) (def_lt (i := 1) rfl) exB_text _).2 exB_means

/-- C67: `Vec<E>` rejects `["A" 3]`, so it stands for nothing. -/
example : ¬ ∃ v, JsonReading exJEnv toyFloat (.vec (.named 1)) (chars "[\"A\" 3]") v :=
  C67_json_rejected_means_nothing toyFloat_laws exJEnv_lawful exJEnv_distinct (json_rejects 12 (by decide +kernel))

theorem JScan.det {ls txt r} (h : JScan fl ls txt r) : ∀ {ls' r'}, JScan fl ls' txt r' →
    (∃ m, ls' = ls ++ m ∧ JScan fl m r r') ∨ ∃ m, ls = ls' ++ m ∧ JScan fl m r' r := by
  induction h with
  | nil => intro ls' r' h; exact .inl ⟨_, rfl, h⟩
  | @cons l ls w s a r hw hs hl ht ih =>
    intro ls' r' h'
    generalize hx : w ++ s ++ a = x at h'
    cases h' with
    | nil => exact .inr ⟨_, rfl, hx ▸ .cons hw hs hl ht⟩
    | @cons l' ls' w' s' a' r' hw' hs' hl' ht' =>
      have g := JScan.cons hw hs hl .nil
      have g' := JScan.cons hw' hs' hl' .nil
      rw [hx] at g
      generalize w' ++ s' ++ a' = y at *
      cases g.stream with
      | cons q1 q2 =>
        cases g'.stream with
        | cons q1' q2' =>
          cases q2; cases q2'
          obtain ⟨c, e1, e2⟩ := q1 { initSt jcol [] with cur := ⟨y, 0, 0⟩ } rfl
          obtain ⟨c', e1', e2'⟩ := q1' { initSt jcol [] with cur := ⟨y, 0, 0⟩ } rfl
          rw [e2] at e2'
          injection e2' with _ e2'
          injection e2' with f1 f2 f3 f4
          subst f1
          have hll : l = l' := by
            have a1 : AtL jtok (JLex fl) { initSt jcol [] with tok := jtok l, strbuf := l.sb.getD [], identbuf := l.ib.getD [] } l :=
              ⟨rfl, fun b hb => by simp [hb], fun b hb => by simp [hb], _, _, .inr g⟩
            have a2 : AtL jtok (JLex fl) { initSt jcol [] with tok := jtok l, strbuf := l.sb.getD [], identbuf := l.ib.getD [] } l' :=
              ⟨f2, fun b hb => by have := f3; simp [hb] at this; simpa [initSt] using this,
                fun b hb => by have := f4; simp [hb] at this; simpa [initSt] using this, _, _, .inr g'⟩
            exact a1.jeq.trans a2.jeq.symm
          subst hll
          rw [e1'] at e1
          subst e1
          rcases ih ht' with ⟨m, rfl, h⟩ | ⟨m, rfl, h⟩
          · exact .inl ⟨m, rfl, h⟩
          · exact .inr ⟨m, rfl, h⟩

theorem JScanEnd.no_scan {a l m r} (h : JScanEnd a) (h' : JScan fl (l :: m) a r) : False := by
  obtain ⟨r', q⟩ := Json.jscanEnd (fl := fl) h
  have hsp : ∃ s, JSpell fl l s := by
    clear h q
    generalize hlm : l :: m = lm at h'
    cases h' with
    | nil => cases hlm
    | cons _ g _ _ => injection hlm with e1 e2; subst e1; exact ⟨_, g⟩
  obtain ⟨sp, hsp⟩ := hsp
  cases h'.stream with
  | cons q' _ =>
    obtain ⟨c, _, e⟩ := q { initSt jcol [] with cur := ⟨a, 0, 0⟩ } rfl
    obtain ⟨c', _, e'⟩ := q' { initSt jcol [] with cur := ⟨a, 0, 0⟩ } rfl
    rw [e] at e'
    injection e' with _ e'
    exact jtok_eof hsp (congrArg PSt.tok e').symm

/-- A text of lexemes is a text of no other lexemes. -/
theorem JWhole.det {ls ls' txt} (h : JWhole fl ls txt) (h' : JWhole fl ls' txt) : ls = ls' := by
  obtain ⟨r, h, g⟩ := h
  obtain ⟨r', h', g'⟩ := h'
  rcases h.det h' with ⟨m, e, k⟩ | ⟨m, e, k⟩
  · cases m with
    | nil => simpa using e.symm
    | cons l m => exact (g.no_scan k).elim
  · cases m with
    | nil => simpa using e
    | cons l m => exact (g'.no_scan k).elim

/-- What a text begins with is the beginning of all its lexemes. -/
theorem JWhole.prefix {ls ls' txt r} (h : JWhole fl ls txt) (h' : JScan fl ls' txt r) : ∃ m, ls = ls' ++ m := by
  obtain ⟨r', h, g⟩ := h
  rcases h.det h' with ⟨m, e, k⟩ | ⟨m, e, k⟩
  · cases m with
    | nil => exact ⟨[], by simpa using e.symm⟩
    | cons l m => exact (g.no_scan k).elim
  · exact ⟨m, e⟩

/-- C67, the hypotheses of the theorem with exceptions: `{"n":3}` is rejected by `Conf` (a string is wanted), hence
stands for nothing — and conversely. -/
example : Rejects (fun n => deserializeJson exJEnv toyFloat n (.named 3) (chars "{\"n\":3}")) ↔
    ¬ ∃ v, JsonReading exJEnv toyFloat (.named 3) (chars "{\"n\":3}") v := by
  have hJ : (JTree.obj [(.str (chars "n"), .num (.nat 3))] false).lexemes =
      [.punct .curlyOpen, .str (chars "n"), .punct .colon, .num (.nat 3), .punct .curlyClose] := by
    simp [JTree.lexemes, commaLexemes]
  have sc : JScan toyFloat [.punct .curlyOpen, .str (chars "n"), .punct .colon, .num (.nat 3), .punct .curlyClose]
      (chars "{\"n\":3}") [] :=
    .cons (w := []) (s := chars "{") (r := chars "\"n\":3}") .nil .curlyOpen (fun _ _ => trivial)
      (.cons (w := []) (s := chars "\"n\"") (r := chars ":3}") .nil
        (.str (b := ['n']) (.plain (by decide) (by decide) (by decide) .nil)) (fun _ _ => trivial)
        (.cons (w := []) (s := chars ":") (r := chars "3}") .nil .colon (fun _ _ => trivial)
          (.cons (w := []) (s := chars "3") (r := chars "}") .nil (.num (showNat_lit (n := 3) (by decide)))
            (fun c hc => by simp [chars] at hc; subst hc; simp [JLongest])
            (.cons (w := []) (s := chars "}") (r := []) .nil .curlyClose (fun _ _ => trivial) .nil))))
  have wh : JWhole toyFloat (JTree.obj [(.str (chars "n"), .num (.nat 3))] false).lexemes (chars "{\"n\":3}") :=
    hJ ▸ ⟨[], sc, [], [], [], rfl, .nil, .inl rfl, .inl rfl⟩
  obtain ⟨b1, _, b3⟩ := (JTree.obj [(.str (chars "n"), .num (.nat 3))] false).balanced
  refine C67_json_rejects_iff (t := .named 3) toyFloat_laws exJEnv_lawful exJEnv_distinct exJEnv_wf exJEnv_productive (def_lt exConf_def) _ ?_ ?_ ?_
  · intro ls h
    rw [h.det wh]; exact b1
  · rintro (⟨ls, l, r, h, hl⟩ | ⟨ls, h⟩)
    · obtain ⟨m, hm⟩ := wh.prefix h
      obtain ⟨l', r', k1, k2⟩ := b3 ls (l :: m) (by rw [hm]; simp)
      injection k1 with k1
      subst k1
      rw [hl] at k2; cases k2
    · obtain ⟨l', r', k1, _⟩ := b3 ls [] (by rw [wh.det h])
      cases k1
  · left
    rintro ⟨ls, v, r, h, hv⟩
    obtain ⟨m, hm⟩ := wh.prefix h
    have : .num (.nat v) ∈ (JTree.obj [(.str (chars "n"), .num (.nat 3))] false).lexemes := by rw [hm]; simp
    rw [hJ] at this
    simp at this
    omega

/-- C67: `Vec<(u8, BTreeMap<String, Option<f64>>)>`: every text is read as what it stands for, or is rejected. -/
example (txt : List Char) :
    Rejects (fun n => deserializeJson (lawEnv [] []) toyFloat n (.vec (.pair (.int .u8) (.bmap .str (.option .f64)))) txt) ↔
      ¬ ∃ v, JsonReading (lawEnv [] []) toyFloat (.vec (.pair (.int .u8) (.bmap .str (.option .f64)))) txt v := by
  refine C67_json_rejects_iff_without_named_fields toyFloat_laws (lawEnv_lawful _ _) ⟨?_, ?_, ?_⟩ ⟨?_, ?_⟩
    ⟨exRank, fun t => Nat.lt_succ_self _, fun t => Nat.lt_succ_self _, ?_, ?_⟩ ?_ ⟨?_, ?_⟩ ?_ rfl txt <;>
    simp [lawEnv, TyWf, IntKind.textual, NoNamed]

/-- C67: `[] ]` is the empty vector: the bracket after it is legible. -/
example : Decodes (fun n => deserializeJson exJEnv toyFloat n (.vec (.named 0)) (chars "[] ]")) (.seq []) := by
  refine C67_json_trailing toyFloat_laws exJEnv_lawful exJEnv_distinct (ls := inBlocks false []) (l := .punct .blockClose) (rest := [])
    (.vec [] (by simp)) ?_ ?_
  · exact .cons (w := []) (s := chars "[") (r := chars "] ]") .nil .blockOpen (fun _ _ => trivial)
      (.cons (w := []) (s := chars "]") (r := chars " ]") .nil .blockClose (fun _ _ => trivial)
        (.cons (w := chars " ") (s := chars "]") (r := []) (.space (.inl rfl) .nil) .blockClose (fun _ _ => trivial) .nil))
  · simp [inBlocks]

end NS
