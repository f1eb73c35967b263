import Verif.Lemmas.RonSound5
import Verif.Props.RonHalts
import Verif.Props.JsonMeans
/-! # Properties C64, C65: what RON texts mean, for every text -/
namespace NS
variable {env : Env} {fl : FloatOps}

/-! ## C64 -/

/-- **C64**: on *every* text, a RON reader returns `v` exactly if the text begins with a RON value that
denotes `v` at that type (or with two words that stand for `v`, `WordPair`). -/
theorem C64_ron_reads_exactly (hfl : FloatLaws fl) (hk : LawfulKeys env) (hd : DistinctProg env) (t : Ty)
    (txt : List Char) (v : Val) :
    Decodes (fun n => deserializeRon env fl n t txt) v ↔ RonReading env fl t txt v := by
  constructor
  · rintro ⟨n, h⟩
    obtain ⟨s, e⟩ := h n (Nat.le_refl _)
    exact ron_sound hfl hk hd e
  · rintro (⟨x, hx, h⟩ | ⟨w, w', rest, hx, h⟩)
    · exact ron_decodes_of_begins hk hx h
    · exact ron_decodes_of_words hx h

/-- **C64** (any budget): whatever a run of the reader returns is what the text stands for. -/
theorem C64_ron_reads_only (hfl : FloatLaws fl) (hk : LawfulKeys env) (hd : DistinctProg env) {t : Ty}
    {txt : List Char} {n : Nat} {v : Val} {s : PSt} (h : deserializeRon env fl n t txt = .ok v s) :
    RonReading env fl t txt v :=
  ron_sound hfl hk hd h

/-- **C64** (one reading): a text stands for at most one value. -/
theorem C64_ron_reading_unique (hfl : FloatLaws fl) (hk : LawfulKeys env) (hd : DistinctProg env) {t : Ty}
    {txt : List Char} {v v' : Val} (h : RonReading env fl t txt v) (h' : RonReading env fl t txt v') : v = v' := by
  obtain ⟨N, a⟩ := (C64_ron_reads_exactly hfl hk hd t txt v).2 h
  obtain ⟨N', b⟩ := (C64_ron_reads_exactly hfl hk hd t txt v').2 h'
  obtain ⟨s, a⟩ := a (max N N') (Nat.le_max_left _ _)
  obtain ⟨s', b⟩ := b (max N N') (Nat.le_max_right _ _)
  rw [a] at b
  exact (Out.ok.inj b).1

/-! ## C65 -/

/-- **C65**: a RON reader rejects a text with an error exactly if the text stands for no value.  (Unless the
program uses `Duration` or `SystemTime` and the text has a run of digits of value `2^63 - 1` or more.) -/
theorem C65_ron_rejects_iff (hfl : FloatLaws fl) (hk : LawfulKeys env) (hd : DistinctProg env) (hw : ProgWf env)
    (hnp : env.proxies = []) {t : Ty} (ht : TyWf env t) (txt : List Char)
    (h : ¬ HugeDigits txt ∨ NoTime env ∧ noTime t = true) :
    Rejects (fun n => deserializeRon env fl n t txt) ↔ ¬ ∃ v, RonReading env fl t txt v := by
  constructor
  · rintro ⟨N, a⟩ ⟨v, hv⟩
    obtain ⟨N', b⟩ := (C64_ron_reads_exactly hfl hk hd t txt v).2 hv
    obtain ⟨e, s, a⟩ := a (max N N') (Nat.le_max_left _ _)
    obtain ⟨s', b⟩ := b (max N N') (Nat.le_max_right _ _)
    rw [a] at b
    cases b
  · intro hn
    rcases C45_ron_ok_or_err (fl := fl) hw hnp ht txt h with ⟨v, hv⟩ | hr
    · exact absurd ⟨v, (C64_ron_reads_exactly hfl hk hd t txt v).1 hv⟩ hn
    · exact hr

/-- **C65** (trailing text): what follows a value is not read beyond one lexeme, which must be legible. -/
theorem C65_ron_trailing (hk : LawfulKeys env) {t : Ty} {x : RTree} {txt rest : List Char} {l : Lexeme} {v : Val}
    (hv : RonMeans env fl t x v) (hx : RScan fl (x.lexemes ++ [l]) txt rest)
    (hl : ¬ ((∃ w, x.lexemes = [.word w]) ∧ ∃ w, l = .word w)) :
    Decodes (fun n => deserializeRon env fl n t txt) v :=
  ron_decodes_of_begins hk (.inr ⟨l, rest, hx, hl⟩) hv

/-! ## Examples -/

/-- The program `enum E { A, B(i8, String), C { n: Vec<E> } }`. -/
noncomputable def exE : Env := lawEnv
  [.enum [{ name := chars "A", shape := .unit }, { name := chars "B", shape := .tuple [.int .i8, .str] },
    { name := chars "C", shape := .named [{ name := chars "n", ty := .vec (.named 0) }] }]] []

theorem exE_distinct : DistinctProg exE := by
  refine ⟨?_, ?_, ?_⟩
  · intro i fs cd nul h
    match i with
    | 0 => simp [exE, lawEnv] at h
    | n + 1 => simp [exE, lawEnv] at h
  · intro i vars h
    match i with
    | 0 => simp [exE, lawEnv] at h; subst h; simp [DistinctVariants]; decide
    | n + 1 => simp [exE, lawEnv] at h
  · intro i vars h
    match i with
    | 0 =>
      simp [exE, lawEnv] at h; subst h
      intro v hv fs hs
      simp only [List.mem_cons, List.not_mem_nil, or_false] at hv
      rcases hv with rfl | rfl | rfl <;> simp at hs
      subst hs
      simp [DistinctNames]
    | n + 1 => simp [exE, lawEnv] at h

theorem exE_wf : ProgWf exE := by
  refine ⟨?_, by intro p hp; simp [exE, lawEnv] at hp⟩
  intro d hd t ht
  simp only [exE, lawEnv, List.mem_cons, List.not_mem_nil, or_false] at hd
  subst hd
  simp [Def.tys] at ht
  rcases ht with rfl | rfl | rfl <;> simp [TyWf, IntKind.textual, exE, lawEnv]

theorem exE_noTime : NoTime exE := by
  refine ⟨?_, by intro p hp; simp [exE, lawEnv] at hp⟩
  intro d hd t ht
  simp only [exE, lawEnv, List.mem_cons, List.not_mem_nil, or_false] at hd
  subst hd
  simp [Def.tys] at ht
  rcases ht with rfl | rfl | rfl <;> simp [noTime]

theorem ron_rejects (n : Nat) {t : Ty} {inp : List Char}
    (h : (deserializeRon env fl n t inp).errSat (fun _ _ => true) = true) : Rejects (fun n => deserializeRon env fl n t inp) := by
  obtain ⟨e, s, h, _⟩ := Out.errSat_spec h
  exact (rrejectsWith_of_run (l := e.line) (c := e.col) (why := e.msg) h).rejects

/-- `A B(…` and then anything: reading `E` (variants `A` and `B`) is refused, although `A` is a variant: the
reader has already moved on to the word `B`, which is not a unit variant. -/
example : Rejects (fun n => deserializeRon exJEnv toyFloat n (.named 1) (chars "A B(")) := ron_rejects 9 (by decide +kernel)

/-- `foo A` is read as the variant `A`: `foo` is not looked at. -/
example : RonReading exJEnv toyFloat (.named 1) (chars "foo A") (.variant 0 []) := by
  refine (C64_ron_reads_exactly toyFloat_laws exJEnv_lawful exJEnv_distinct _ _ _).1 ?_
  exact ron_ok 9 _ (by decide +kernel)

/-- Directly: the two words `foo` and `A` stand for `A`. -/
example : RonReading exJEnv toyFloat (.named 1) (chars "foo A") (.variant 0 []) := by
  refine .inr ⟨chars "foo", chars "A", [], ?_, ?_⟩
  · refine RScan.cons (w := []) (s := chars "foo") (r := chars " A") .nil (.inl ?_) ?_
      (RScan.cons (w := chars " ") (s := chars "A") (r := []) (.space (.inl rfl) .nil) (.inl ?_) (by simp) .nil)
    · refine .word ⟨'f', ['o', 'o'], rfl, ?_, ?_⟩ <;> simp [IdStart, IdCont]
    · intro c hc; simp [chars] at hc; subst hc; simp [RLongest, IdStart, IdCont]
    · refine .word ⟨'A', [], rfl, ?_, ?_⟩ <;> simp [IdStart]
  · exact .variant (i := 1) (var := { name := chars "A", shape := .unit }) rfl ⟨by decide, by decide⟩ rfl rfl (by simp) rfl

/-- `[1, 2] )` is read as the vector `[1, 2]`; it stands for nothing else. -/
example (v : Val) : RonReading exJEnv toyFloat (.vec (.int .u8)) (chars "[1, 2] )") v ↔ v = .seq [.int 1, .int 2] := by
  have h := (C64_ron_reads_exactly toyFloat_laws exJEnv_lawful exJEnv_distinct (.vec (.int .u8)) (chars "[1, 2] )")
    (.seq [.int 1, .int 2])).1 (ron_ok 9 _ (by decide +kernel))
  exact ⟨fun h' => C64_ron_reading_unique toyFloat_laws exJEnv_lawful exJEnv_distinct h' h, fun e => e ▸ h⟩

/-- `Vec<E>` rejects `[A, B(1 "x")]` (a comma is missing), so it stands for nothing. -/
example : ¬ ∃ v, RonReading exE toyFloat (.vec (.named 0)) (chars "[A, B(1 \"x\")]") v :=
  (C65_ron_rejects_iff toyFloat_laws (lawEnv_lawful _ _) exE_distinct exE_wf rfl (by show (0 : Nat) < 1; decide) _
    (.inr ⟨exE_noTime, rfl⟩)).1 (ron_rejects 12 (by decide +kernel))

/-- `[] ]` is the empty vector: the bracket after it is legible. -/
example : Decodes (fun n => deserializeRon exE toyFloat n (.vec (.named 0)) (chars "[] ]")) (.seq []) := by
  refine C65_ron_trailing (lawEnv_lawful _ _) (x := .list [] false) (l := .punct .blockClose) (rest := []) (.vec []  (by simp)) ?_ ?_
  · simp only [RTree.lexemes, commaLexemes, List.attach_nil, List.map_nil, List.nil_append, List.cons_append]
    exact .cons (w := []) (s := chars "[") (r := chars "] ]") .nil (.inl .blockOpen) (by simp [RLongest])
      (.cons (w := []) (s := chars "]") (r := chars " ]") .nil (.inl .blockClose) (by simp [RLongest])
        (.cons (w := chars " ") (s := chars "]") (r := []) (.space (.inl rfl) .nil) (.inl .blockClose) (by simp) .nil))
  · simp [RTree.lexemes]

end NS
