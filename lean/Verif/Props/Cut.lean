import Verif.Lemmas.CutText
import Verif.Props.Truncate
/-!
# Property C95: a JSON text that breaks off neither panics nor hangs a reader that knows its keys

`Trips env t J` (`Spec/Unknown.lean`): reading `J` as a `t` meets a member whose key is not a field, or a time out of range.
-/
namespace NS
variable {env env' : Env} {fl : FloatOps}

/-- **C95**: let `p` be any part at the beginning of a text whose lexemes are those of a JSON value (the whole text included).
A reader that meets in this value no unknown key and no time out of range returns on `p`, with `Ok` or `Err`. -/
theorem C95_json_cut_returns (hfl : FloatLaws fl) (hw : ProgWf env) (hp : Productive env) {t : Ty} (ht : TyWf env t) {J : JTree}
    (hT : ¬ Trips env t J) {p q : List Char} (hx : JScan fl J.lexemes (p ++ q) []) :
    (∃ v, Decodes (fun n => deserializeJson env fl n t p) v) ∨ Rejects (fun n => deserializeJson env fl n t p) := by
  obtain ⟨N, o, h, h1, h2⟩ := json_cut_outcome hfl hw hp ht hT hx
  cases o with
  | ok v s => exact .inl ⟨v, N, fun n hn => ⟨s, h n hn⟩⟩
  | err e s => exact .inr ⟨N, fun n hn => ⟨e, s, h n hn⟩⟩
  | panic => exact absurd rfl h1
  | oof => exact absurd rfl h2

/-- **C95**: unless the value is a number, the reader returns `Err` on every proper prefix. -/
theorem C95_json_cut_rejects (hfl : FloatLaws fl) (hk : LawfulKeys env) (hd : DistinctProg env) (hw : ProgWf env) (hp : Productive env)
    {t : Ty} (ht : TyWf env t) {J : JTree} (hn : ∀ n, J ≠ .num n) (hT : ¬ Trips env t J) {txt : List Char} (hx : JScan fl J.lexemes txt [])
    (hc : ∀ c, txt.head? = some c → c ∉ [' ', '\n', '\r', '\t', '/']) {p q : List Char} (e : txt = p ++ q) (hq : q ≠ []) :
    Rejects (fun n => deserializeJson env fl n t p) := by
  refine json_cut_rejects hfl hw hp ht hT (e ▸ hx) fun n v s h => ?_
  refine json_truncated_reading hx J.passedOver (fun m hm => ?_) hc e hq (C66_json_reads_only hfl hk hd h)
  cases J with
  | num k => exact hn k rfl
  | null => rw [JTree.lexemes] at hm; cases hm
  | bool b => cases b <;> rw [JTree.lexemes] at hm <;> cases hm
  | str k => rw [JTree.lexemes] at hm; cases hm
  | arr xs tr => rw [JTree.lexemes_arr] at hm; cases hm
  | obj xs tr => rw [JTree.lexemes_obj] at hm; cases hm

/-- What a program has written, it reads without meeting unknown keys or times out of range. -/
theorem written_known (hk : LawfulKeys env) (hfl : FloatLaws fl) (hE : JsonEnvOk env) {t : Ty} {v v' : Val}
    (hs : SkipEq env false t v v') (hT : HasTy env t v') (hX : JsonExact env t v') {chk : Bool} {txt : List Char}
    (h : serializeJson env fl chk t v = some txt) : ∃ J : JTree, JScan fl J.lexemes txt [] ∧ ¬ Trips env t J := by
  rw [skipEq_serialize hs] at h
  unfold serializeJson at h
  split at h
  · cases h
  · injection h with h
    subst h
    obtain ⟨J, h1, h2, _⟩ := jround hk hfl hE v' t hT (hX.text hfl)
    have := h1 [] [] [] .nil .nil
    simp only [List.append_nil] at this
    exact ⟨J, this.scan, h2.2⟩

/-- **C95** (written texts): a file written by `serialize_json` and cut off anywhere (a crash while writing, a
partial download) is read back by the program that wrote it without panic and without end: with `Ok` or `Err`. -/
theorem C95_json_cut_written_returns (hk : LawfulKeys env) (hfl : FloatLaws fl) (hE : JsonEnvOk env) (hw : ProgWf env) (hp : Productive env)
    {t : Ty} (ht : TyWf env t) {v v' : Val} (hs : SkipEq env false t v v') (hT : HasTy env t v') (hX : JsonExact env t v') {chk : Bool}
    {txt : List Char} (h : serializeJson env fl chk t v = some txt) {p q : List Char} (e : txt = p ++ q) :
    (∃ v, Decodes (fun n => deserializeJson env fl n t p) v) ∨ Rejects (fun n => deserializeJson env fl n t p) := by
  obtain ⟨J, hx, hTr⟩ := written_known hk hfl hE hs hT hX h
  exact C95_json_cut_returns hfl hw hp ht hTr (e ▸ hx)

/-- **C95** (written texts): with `Err`, if something is missing and the text begins with `{`, `[`, `"` or a letter. -/
theorem C95_json_cut_written_rejects (hk : LawfulKeys env) (hfl : FloatLaws fl) (hE : JsonEnvOk env) (hd : DistinctProg env) (hw : ProgWf env)
    (hp : Productive env) {t : Ty} (ht : TyWf env t) {v v' : Val} (hs : SkipEq env false t v v') (hT : HasTy env t v')
    (hX : JsonExact env t v') {chk : Bool} {txt : List Char} (h : serializeJson env fl chk t v = some txt)
    (hc : ∃ c ∈ ['{', '[', '"', 't', 'f', 'n'], txt.head? = some c) {p q : List Char} (e : txt = p ++ q) (hq : q ≠ []) :
    Rejects (fun n => deserializeJson env fl n t p) := by
  obtain ⟨J, hx, hTr⟩ := written_known hk hfl hE hs hT hX h
  exact json_cut_rejects hfl hw hp ht hTr (e ▸ hx) fun n v s => C93_json_truncated_written hk hfl hE hs hT hX h hc hk hd e hq t n v s

/-- The exception: after an unknown key, a reader of a struct hangs on `{"k":[` and panics on `{"k":`, both beginnings of
`{"k":[]}`. -/
theorem C95_json_cut_unknown_key :
    (∃ q, chars "{\"k\":[]}" = chars "{\"k\":[" ++ q) ∧ Diverges (fun n => deserializeJson exJEnv toyFloat n (.named 3) (chars "{\"k\":[")) ∧
    (∃ q, chars "{\"k\":[]}" = chars "{\"k\":" ++ q) ∧ Panics (fun n => deserializeJson exJEnv toyFloat n (.named 3) (chars "{\"k\":")) := by
  refine ⟨⟨chars "]}", by decide⟩, ?_, ⟨chars "[]}", by decide⟩, json_panic 9 (by decide +kernel)⟩
  refine C31_json_hangs (i := 3) (key := chars "k") (b := .punct .blockOpen) (post := []) exConf_def (by simp) exConf_unknown
    ⟨[], .inl .nil, ?_⟩ (.inl rfl) ?_
  · refine .cons (w := []) .nil .curlyOpen trivial (.cons (w := []) (s := chars "\"k\"") .nil ?_ trivial
      (.cons (w := []) .nil .colon trivial (.cons (w := []) .nil .blockOpen trivial .nil)))
    exact .str (b := ['k']) (.plain (by decide) (by decide) (by decide) .nil)
  · intro mid rest h
    have : mid = [] := by
      cases mid with
      | nil => rfl
      | cons => simp at h
    subst this
    decide

/-! ## Examples -/

/-- C95: the configuration file `{"n":"a\"b",…}`, cut anywhere. -/
example {p q : List Char} {txt : List Char} (h : serializeJson exJEnv toyFloat false (.named 3) exConfVal = some txt) (e : txt = p ++ q)
    (hq : q ≠ []) : Rejects (fun n => deserializeJson exJEnv toyFloat n (.named 3) p) := by
  refine C95_json_cut_written_rejects exJEnv_lawful toyFloat_laws exJEnv_ok exJEnv_distinct exJEnv_wf exJEnv_productive (t := .named 3) (def_lt exConf_def)
    (v := exConfVal) (v' := exConfVal) (chk := false) ?_ exConfVal_typed exConfVal_exact h ⟨'{', by decide, ?_⟩ e hq
  · simp [SkipEq, exConfVal, exConf, SkipEqFields, SkipEqTys, exMeters]
  · injection (show _ = some txt from h) with h
    rw [← h]; rfl

/-- C95: `{"n":["x"]}` has known keys only — the value is of the wrong type — so every beginning is refused. -/
example {p q : List Char} (e : chars "{\"n\":[\"x\"]}" = p ++ q) (hq : q ≠ []) :
    Rejects (fun n => deserializeJson exJEnv toyFloat n (.named 3) p) := by
  refine C95_json_cut_rejects (J := .obj [(.str (chars "n"), .arr [.str (chars "x")] false)] false) toyFloat_laws exJEnv_lawful exJEnv_distinct
    exJEnv_wf exJEnv_productive (t := .named 3) (def_lt exConf_def) (by simp) ?_ ?_ (by intro c h; simp [chars] at h; subst h; decide) e hq
  · refine not_trips_struct exConf_def (by simp [Field.jsonName, chars]) fun m hm => ?_
    simp only [List.mem_cons, List.not_mem_nil, or_false] at hm
    subst hm
    exact ⟨_, List.mem_cons_self, rfl, rfl, not_trips_leaf (by simp) _⟩
  · simp only [JTree.lexemes_obj, List.map_cons, List.map_nil, commaLexemes, JTree.lexemes_arr, JTree.lexemes]
    refine .cons (w := []) (s := ['{']) (r := chars "\"n\":[\"x\"]}") .nil .curlyOpen (by intros; trivial) ?_
    refine .cons (w := []) (s := chars "\"n\"") (r := chars ":[\"x\"]}") .nil (.str (b := ['n']) (.plain (by decide) (by decide) (by decide) .nil)) (by intros; trivial) ?_
    refine .cons (w := []) (s := [':']) (r := chars "[\"x\"]}") .nil .colon (by intros; trivial) ?_
    refine .cons (w := []) (s := ['[']) (r := chars "\"x\"]}") .nil .blockOpen (by intros; trivial) ?_
    refine .cons (w := []) (s := chars "\"x\"") (r := chars "]}") .nil (.str (b := ['x']) (.plain (by decide) (by decide) (by decide) .nil)) (by intros; trivial) ?_
    refine .cons (w := []) (s := [']']) (r := chars "}") .nil .blockClose (by intros; trivial) ?_
    exact .cons (w := []) (s := ['}']) (r := []) .nil .curlyClose (by intros; trivial) .nil

end NS
