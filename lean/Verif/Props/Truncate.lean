import Verif.Lemmas.TruncateRon
import Verif.Props.JsonRound
import Verif.Props.RonRound
import Verif.Props.RonHalts
import Verif.Props.Stream
/-! # Property C93: a text cut off before its end is not mistaken for a value -/
namespace NS
variable {env env' : Env} {fl : FloatOps}

/-! ## JSON -/

/-- **C93** (JSON, any text): let `txt` be exactly a value — the lexemes `ls`, which denote some `v` of some type — other
than a number, without white space or comment before it.  No reader of any type of any program accepts a proper
prefix of `txt`. -/
theorem C93_json_truncated (hfl : FloatLaws fl) (hk : LawfulKeys env') (hd : DistinctProg env') {t : Ty} {ls : List Lexeme}
    {v : Val} {txt : List Char} (hx : JScan fl ls txt []) (hv : JsonSays env fl t ls v) (hn : ∀ n, ls ≠ [.num n])
    (hc : ∀ c, txt.head? = some c → c ∉ [' ', '\n', '\r', '\t', '/']) {p q : List Char} (e : txt = p ++ q) (hq : q ≠ [])
    (t' : Ty) (n : Nat) (v' : Val) (s : PSt) : deserializeJson env' fl n t' p ≠ .ok v' s := fun h =>
  json_truncated_reading hx hv.passedOver hn hc e hq (C66_json_reads_only hfl hk hd h)

/-- The text of a written value scans as the lexemes of a tree, to its end. -/
theorem written_scan (hk : LawfulKeys env) (hfl : FloatLaws fl) (hE : JsonEnvOk env) {t : Ty} {v v' : Val}
    (hs : SkipEq env false t v v') (hT : HasTy env t v') (hX : JsonExact env t v') {chk : Bool} {txt : List Char}
    (h : serializeJson env fl chk t v = some txt) : ∃ J : JTree, JScan fl J.lexemes txt [] := by
  rw [skipEq_serialize hs] at h
  unfold serializeJson at h
  split at h
  · cases h
  · injection h with h
    subst h
    obtain ⟨J, h1, _, _⟩ := jround hk hfl hE v' t hT (hX.text hfl)
    have := h1 [] [] [] .nil .nil
    simp only [List.append_nil] at this
    exact ⟨J, this.scan⟩

/-- The first character of a text in terms of its only lexeme. -/
theorem num_head {n : Num} {txt : List Char} {c : Char} (h : JScan fl [.num n] txt []) (hc : txt.head? = some c)
    (hl : c ∉ [' ', '\n', '\r', '\t', '/']) : c = '-' ∨ c = '+' ∨ isDig c = true := by
  cases txt with
  | nil => cases hc
  | cons d txt =>
    simp at hc
    subst hc
    obtain ⟨s, r, _, hs, hh, _⟩ := h.first hl
    cases hs with
    | num hs =>
      obtain ⟨y, r, e, hy⟩ := hs.head
      subst e
      simp at hh
      subst hh
      exact hy

/-- **C93** (JSON, written texts): let `txt = serialize_json(v)` begin with `{`, `[`, `"` or a letter (so it is not a
number).  No reader of any type of any program accepts a proper prefix of it. -/
theorem C93_json_truncated_written (hk : LawfulKeys env) (hfl : FloatLaws fl) (hE : JsonEnvOk env) {t : Ty} {v v' : Val}
    (hs : SkipEq env false t v v') (hT : HasTy env t v') (hX : JsonExact env t v') {chk : Bool} {txt : List Char}
    (h : serializeJson env fl chk t v = some txt) (hc : ∃ c ∈ ['{', '[', '"', 't', 'f', 'n'], txt.head? = some c)
    (hk' : LawfulKeys env') (hd' : DistinctProg env') {p q : List Char} (e : txt = p ++ q) (hq : q ≠ [])
    (t' : Ty) (n : Nat) (w : Val) (s : PSt) : deserializeJson env' fl n t' p ≠ .ok w s := by
  obtain ⟨J, hx⟩ := written_scan hk hfl hE hs hT hX h
  obtain ⟨c, hc, hh⟩ := hc
  have hl : c ∉ [' ', '\n', '\r', '\t', '/'] := by
    intro h'
    simp only [List.mem_cons, List.not_mem_nil, or_false] at hc
    rcases hc with rfl | rfl | rfl | rfl | rfl | rfl <;> exact absurd h' (by decide)
  intro hr
  refine json_truncated_reading hx J.passedOver ?_ (fun d hd => ?_) e hq (C66_json_reads_only hfl hk' hd' hr)
  · intro m hm
    rw [hm] at hx
    have := num_head hx hh hl
    simp only [List.mem_cons, List.not_mem_nil, or_false] at hc
    rcases hc with rfl | rfl | rfl | rfl | rfl | rfl <;> rcases this with h | h | h <;> exact absurd h (by decide)
  · rw [hh] at hd
    injection hd with hd
    exact hd ▸ hl

/-- **C93** (JSON, programs without named fields): the readers return `Err` on every such truncated text. -/
theorem C93_json_truncated_rejects (hfl : FloatLaws fl) (hk : LawfulKeys env') (hd : DistinctProg env') (hw : ProgWf env')
    (hp : Productive env') (hN : NoNamed env') (hNT : NoTime env') {t : Ty} {ls : List Lexeme}
    {v : Val} {txt : List Char} (hx : JScan fl ls txt []) (hv : JsonSays env fl t ls v) (hn : ∀ n, ls ≠ [.num n])
    (hc : ∀ c, txt.head? = some c → c ∉ [' ', '\n', '\r', '\t', '/']) {p q : List Char} (e : txt = p ++ q) (hq : q ≠ [])
    {t' : Ty} (ht' : TyWf env' t') (htt : noTime t' = true) : Rejects (fun n => deserializeJson env' fl n t' p) :=
  (C67_json_rejects_iff_without_named_fields hfl hk hd hw hp hN hNT ht' htt p).2 fun ⟨_, h⟩ =>
    json_truncated_reading hx hv.passedOver hn hc e hq h

/-- The exception: a truncated number is a number. -/
theorem C93_json_truncated_number : Decodes (fun n => deserializeJson env toyFloat n (.int .u8) (chars "12")) (.int 12) ∧
    Decodes (fun n => deserializeJson env toyFloat n (.int .u8) (chars "1")) (.int 1) :=
  ⟨json_ok 9 _ (by with_unfolding_all rfl), json_ok 9 _ (by with_unfolding_all rfl)⟩

/-! ## RON -/

/-- **C93** (RON, any text): let `txt` be exactly a RON value, beginning with a bracket or a quote.  No reader of any type
of any program accepts a proper prefix of `txt`. -/
theorem C93_ron_truncated (hfl : FloatLaws fl) (hk : LawfulKeys env') (hd : DistinctProg env') {x : RTree} {txt : List Char}
    (hx : RScan fl x.lexemes txt []) (hc : ∃ c ∈ ['(', '[', '{', '"'], txt.head? = some c)
    {p q : List Char} (e : txt = p ++ q) (hq : q ≠ [])
    (t' : Ty) (n : Nat) (v' : Val) (s : PSt) : deserializeRon env' fl n t' p ≠ .ok v' s := fun h =>
  ron_truncated_reading hx hc e hq (C64_ron_reads_only hfl hk hd h)

theorem written_rscan (hk : LawfulKeys env) (hfl : FloatLaws fl) (hE : RonEnvOk env) {t : Ty} {v v' : Val}
    (hs : SkipEq env false t v v') (hT : HasTy env t v') (hX : RonExact env t v') {chk : Bool} {txt : List Char}
    (h : serializeRon env fl chk t v = some txt) : ∃ x : RTree, RScan fl x.lexemes txt [] := by
  rw [rSkipEq_serialize hs] at h
  unfold serializeRon at h
  split at h
  · cases h
  · injection h with h
    subst h
    obtain ⟨x, h1, _, _⟩ := rround hk hfl hE v' t hT (hX.text hfl hE)
    have := h1 [] [] [] .nil .nil
    simp only [List.append_nil] at this
    exact ⟨x, this.scan⟩

/-- **C93** (RON, written texts): let `txt = serialize_ron(v)` begin with a bracket or a quote (as all structs, lists,
maps, tuples and strings do).  Every reader of every program (without proxies, which RON does not support) returns
`Err` on every proper prefix of it. -/
theorem C93_ron_truncated_written (hk : LawfulKeys env) (hfl : FloatLaws fl) (hE : RonEnvOk env) {t : Ty} {v v' : Val}
    (hs : SkipEq env false t v v') (hT : HasTy env t v') (hX : RonExact env t v') {chk : Bool} {txt : List Char}
    (h : serializeRon env fl chk t v = some txt) (hc : ∃ c ∈ ['(', '[', '{', '"'], txt.head? = some c)
    (hk' : LawfulKeys env') (hd' : DistinctProg env') (hw' : ProgWf env') (hnp : env'.proxies = [])
    {p q : List Char} (e : txt = p ++ q) (hq : q ≠ []) {t' : Ty} (ht' : TyWf env' t')
    (hh : ¬ HugeDigits p ∨ NoTime env' ∧ noTime t' = true) : Rejects (fun n => deserializeRon env' fl n t' p) := by
  obtain ⟨x, hx⟩ := written_rscan hk hfl hE hs hT hX h
  exact (C65_ron_rejects_iff hfl hk' hd' hw' hnp ht' p hh).2 fun ⟨_, hr⟩ => ron_truncated_reading hx hc e hq hr

/-- The exception: a truncated name can be another name.  `Bar(1)` cut off after `Ba`. -/
noncomputable def exBar : Env := lawEnv [.enum [⟨chars "Bar", none, .tuple [.int .u8]⟩, ⟨chars "Ba", none, .unit⟩]] []

theorem C93_ron_truncated_variant :
    serializeRon exBar toyFloat true (.named 0) (.variant 0 [.int 1]) = some (chars "Bar(1)") ∧
    Decodes (fun n => deserializeRon exBar toyFloat n (.named 0) (chars "Ba")) (.variant 1 []) :=
  ⟨by decide +kernel, ron_ok 9 _ (by decide +kernel)⟩

/-! ## Examples -/

/-- C93: the configuration file `{"n":"a\"b",…}` cut anywhere is not read as anything, for instance by the program that wrote it. -/
example {p q : List Char} {txt : List Char} (h : serializeJson exJEnv toyFloat false (.named 3) exConfVal = some txt) (e : txt = p ++ q)
    (hq : q ≠ []) (t : Ty) (n : Nat) (w : Val) (s : PSt) : deserializeJson exJEnv toyFloat n t p ≠ .ok w s := by
  refine C93_json_truncated_written exJEnv_lawful toyFloat_laws exJEnv_ok (v := exConfVal) (v' := exConfVal) (t := .named 3) (chk := false)
    ?_ exConfVal_typed exConfVal_exact h ⟨'{', by decide, ?_⟩ exJEnv_lawful exJEnv_distinct e hq t n w s
  · simp [SkipEq, exConfVal, exConf, SkipEqFields, SkipEqTys, exMeters]
  · injection (show _ = some txt from h) with h
    rw [← h]; rfl

/-- The same value in RON: every proper prefix is refused, for instance as a `Vec<E>`. -/
example {p q : List Char} {txt : List Char} (h : serializeRon exJEnv toyFloat false (.named 3) exConfVal = some txt) (e : txt = p ++ q)
    (hq : q ≠ []) : Rejects (fun n => deserializeRon exE toyFloat n (.vec (.named 0)) p) := by
  refine C93_ron_truncated_written exJEnv_lawful toyFloat_laws exJEnv_ron (v := exConfVal) (v' := exConfVal) (t := .named 3) (chk := false)
    ?_ exConfVal_typed exConfVal_ronExact h ⟨'(', by decide, ?_⟩ (lawEnv_lawful _ _) exE_distinct exE_wf rfl e hq
    (show (0 : Nat) < 1 by decide) (.inr ⟨exE_noTime, rfl⟩)
  · simp [SkipEq, exConfVal, exConf, SkipEqFields, SkipEqTys, exMeters]
  · injection (show _ = some txt from h) with h
    rw [← h]; rfl

/-- C93 (any text): `[1 /**/,7]`, as any type. -/
example {p q : List Char} (e : chars "[1 /**/,7]" = p ++ q) (hq : q ≠ []) (t : Ty) (n : Nat) (w : Val) (s : PSt) :
    deserializeJson exJEnv toyFloat n t p ≠ .ok w s := by
  have num : ∀ c : Char, isDig c = true → decimal [c] ≤ u64Max → JSpell toyFloat (.num (.nat (decimal [c]))) [c] := fun c hc hd =>
    .num (NumLit.nat (sg := []) (ds := [c]) (.inl rfl) (by simp)
      (by intro d hm; simp at hm; subst hm; simp [isDig] at hc; exact hc) hd)
  refine C93_json_truncated (env := exJEnv) (t := .vec (.int .u8))
    (ls := inBlocks false ([([.num (.nat 1)], Val.int 1), ([.num (.nat 7)], Val.int 7)].map (·.1))) (v := .seq [.int 1, .int 7])
    toyFloat_laws exJEnv_lawful exJEnv_distinct ?_ ?_ (by intro n h; cases h) (by intro c h; simp [chars] at h; subst h; decide) e hq t n w s
  · refine .cons (w := []) (s := ['[']) (r := chars "1 /**/,7]") .nil .blockOpen (by intros; trivial) ?_
    refine .cons (w := []) (s := ['1']) (r := chars " /**/,7]") .nil (num '1' rfl (by decide)) (by intro c h; simp [chars] at h; subst h; simp only [JLongest]; decide) ?_
    refine .cons (w := chars " /**/") (s := [',']) (r := chars "7]") (.space (.inl rfl) (.block (b := []) (w := []) (by decide) (by decide) .nil)) .comma
      (by intros; trivial) ?_
    refine .cons (w := []) (s := ['7']) (r := chars "]") .nil (num '7' rfl (by decide)) (by intro c h; simp [chars] at h; subst h; simp only [JLongest]; decide) ?_
    exact .cons (w := []) (s := [']']) (r := []) .nil .blockClose (by intros; trivial) .nil
  · refine .vec _ fun x hx => ?_
    simp only [List.mem_cons, List.not_mem_nil, or_false] at hx
    rcases hx with rfl | rfl <;> exact .int rfl rfl (by decide) (fun _ => ⟨_, rfl⟩)

end NS
