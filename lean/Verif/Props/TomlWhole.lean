import Verif.Lemmas.TomlUnique
import Verif.Props.Toml
/-!
# C70, C71: the TOML parser on all texts
-/
namespace NS

variable {o : TomlOps}

/-! ## One map per document -/

theorem Matching.unique {as bs : List TMap} {cs : List (List (List Char × Toml))} (h : Matching Holding as cs)
    (h' : Matching Holding bs cs) : bs = as := by
  obtain ⟨es, e, he⟩ := Matching.prefix h (ds := []) (by simpa using h')
  cases he
  simpa using e

theorem Stands.unique {doc : List Stmt} {m m' : TMap} (h : Stands doc m) (h' : Stands doc m') : m' = m := by
  have ks : ∀ {m : TMap}, m.Pairwise (fun a b => a.1 < b.1) → KSorted m := fun h =>
    List.Pairwise.imp (fun h => (strLt_iff _ _).2 h) h
  have mem : ∀ k v, (k, v) ∈ m' ↔ (k, v) ∈ m := by
    intro k v
    rcases Classical.em (k ∈ (tables doc).map Prod.fst) with hk | hk
    · obtain ⟨ts, h1, h2⟩ := (h.2 k).2 hk
      obtain ⟨ts', h1', h2'⟩ := (h'.2 k).2 hk
      rw [h1, h1', h2.unique h2']
    · rw [(h.2 k).1 hk, (h'.2 k).1 hk]
  refine tSorted_ext (ks h'.1) (ks h.1) fun k => ?_
  cases hx : tGet k m with
  | none =>
    cases hy : tGet k m' with
    | none => rfl
    | some v =>
      rw [(tGet_mem (ks h.1) k v).2 ((mem k v).1 ((tGet_mem (ks h'.1) k v).1 hy))] at hx
      cases hx
  | some v => exact (tGet_mem (ks h'.1) k v).2 ((mem k v).2 ((tGet_mem (ks h.1) k v).1 hx))

/-! ## C70 -/

/-- **C70**: on every text whatsoever: `parse` returns `Ok(m)` exactly if the text is a document
(`Spec/TomlRead`) in which no `[[name]]` header names a key assigned before the first such header, and `m` is
the map the document stands for. -/
theorem C70_toml_parses_exactly {txt : List Char} {m : TMap} :
    TomlOk (fun n => parseToml o n txt) m ↔ ∃ doc, TSays o doc txt ∧ ¬ Clashes doc ∧ Stands doc m := by
  constructor
  · rintro ⟨n, hn⟩
    obtain ⟨s, hs⟩ := hn n (Nat.le_refl _)
    obtain ⟨doc, ts, c1, u', h1, h2, h3, h4, rfl⟩ := tLoop_sound hs
    obtain ⟨r1, r2⟩ := run_doc h1.plain
    have hc : ¬ Clashes doc := fun hc => by rw [r1 hc] at h4; cases h4
    obtain ⟨u, hu, hst⟩ := r2 hc
    rw [h4] at hu
    cases hu
    exact ⟨doc, ⟨ts, h1, h2.lexesAll h3 h1.no_eof⟩, hc, hst.stands⟩
  · rintro ⟨doc, ⟨ts, h1, h2⟩, hc, hst⟩
    obtain ⟨c', hf, he⟩ := h2.feeds
    obtain ⟨u, hu, hk⟩ := (run_doc h1.plain).2 hc
    obtain ⟨N, hN⟩ := tLoop_reading h1 hf he hu
    have := hk.stands.unique hst
    subst this
    exact ⟨N, hN⟩

/-- **C70**: no text is two documents. -/
theorem C70_toml_one_reading {doc doc' : List Stmt} {txt : List Char} (h : TSays o doc txt) (h' : TSays o doc' txt) :
    doc' = doc := h.unique h'

/-- **C70**: the documents of `Spec/Toml` (`TText`, those of C48–C54) are among them, with the same
statements. -/
theorem C70_toml_documents_read {doc : List Stmt} {txt : List Char} (h : TText o doc txt) : TSays o doc txt := by
  obtain ⟨ts, h1, w, hw, h2⟩ := h
  obtain ⟨c', hf, hc⟩ := h2.feeds (tInit_txt txt)
  exact ⟨ts, .all h1, hf.lexesAll ⟨w, [], by simpa using hc, hw, .inl rfl⟩ h1.no_eof⟩

theorem TLexes.at {t : TTok} {ts : List TTok} {txt tail : List Char} (w s r : List Char) (h : txt = w ++ s ++ r)
    (hw : TLayout w) (hs : TSpells o s r t) (hd : TLexes o ts r tail) : TLexes o (t :: ts) txt tail := by
  subst h; exact .cons hw hs hd

theorem wordEnds_ok {r : List Char} (h : (match r.head? with | none => true | some c => decide (Blank c ∨ c = '=' ∨ c = ']')) = true) :
    TWordEnds r := by
  cases r with
  | nil => exact .inl (.inl rfl)
  | cons c q => exact .inr ⟨c, q, rfl, by simpa using h⟩

theorem word1 {c : Char} {r : List Char} (h1 : Bare c) (h2 : ¬ Digit c) (h3 : c ≠ '-')
    (h : (match r.head? with | none => true | some c => decide (Blank c ∨ c = '=' ∨ c = ']')) = true) :
    TSpells o [c] r (.ident [c]) :=
  .bare h1 h2 h3 (by simp) (wordEnds_ok h) (.name (by simp [tomlWords]))

theorem num1 {c : Char} {r : List Char} (h1 : Digit c)
    (h2 : (match r.head? with | none => true | some c => decide (¬ (Bare c ∨ c = '.'))) = true) :
    TSpells o [c] r (.u64 (c.toNat - 48)) := by
  have hb : c.toNat - 48 < 10 := by
    have := h1.2
    have : c.toNat ≤ 57 := this
    omega
  have hu : c ≠ '_' := by rintro rfl; revert h1; decide
  have hg : ungrouped [c] = [c] := by simp [ungrouped, hu]
  have hd : decimal (ungrouped [c]) = c.toNat - 48 := by rw [hg]; simp [decimal]
  rw [← hd]
  refine .pos (a := []) (g := [c]) (.inl rfl) (.none h1) (by simpa [Digitish] using Or.inl h1) (by rw [hg]; simp) ?_ (notBefore_ok h2)
  rw [hd]; omega

/-- `k=[1 [""a"⏎z`: the quote doubled, no comma, the brackets missing and something after a NUL. -/
def exOdd : List Char := chars "k=[1 [\"\"a\"\n\x00z"

theorem exOdd_says : TSays toyToml [.assign (chars "k") (.simpleArray [.num (toyToml.ofU64 1), .simpleArray [.str (chars "a")]])] exOdd := by
  refine ⟨[.ident (chars "k"), .equals, .blockOpen, .u64 1, .blockOpen, .str (chars "a")], ?_, chars "\n", chars "\x00z",
    .inl (lay1 (by decide)), .inr ⟨_, rfl⟩, ?_⟩
  · refine .cut (doc := []) (ts := []) (t := .ident (chars "k")) .nil (.inl .ident) ?_
    refine .more (vs := [_]) (ts := [_]) (.elem (ts := [_]) (ts' := []) .nat .nil) ?_
    exact .one (.elem (ts := [_]) (ts' := []) .str .nil)
  · refine .at [] (chars "k") (chars "=[1 [\"\"a\"\n\x00z") (by decide) .nil (word1 (by decide) (by decide) (by decide) (by decide)) ?_
    refine .at [] (chars "=") (chars "[1 [\"\"a\"\n\x00z") (by decide) .nil .equals ?_
    refine .at [] (chars "[") (chars "1 [\"\"a\"\n\x00z") (by decide) .nil .blockOpen ?_
    refine .at [] (chars "1") (chars " [\"\"a\"\n\x00z") (by decide) .nil (num1 (c := '1') (by decide) (by decide)) ?_
    refine .at (chars " ") (chars "[") (chars "\"\"a\"\n\x00z") (by decide) (lay1 (by decide)) .blockOpen ?_
    exact .at [] (chars "\"\"a\"") (chars "\n\x00z") (by decide) .nil
      (.str (q := ['"']) (b := chars "a") (.inr rfl) (by decide) (.plain (by decide) (by decide) (by decide) .nil)) .nil

/-- C70: that text is accepted, and the map is what it says. -/
example : TomlOk (fun n => parseToml toyToml n exOdd)
    [(chars "k", .simpleArray [.num (toyToml.ofU64 1), .simpleArray [.str (chars "a")]])] := by
  refine C70_toml_parses_exactly.2 ⟨_, exOdd_says, by rintro ⟨n, as, h, _⟩; simp [tables] at h, ?_⟩
  refine ⟨by simp, fun k => ⟨fun _ v => ?_, fun h => by simp [tables] at h⟩⟩
  exact (holding_single _ _).2 k v

/-- C70: the example document. -/
example : TSays toyToml exTomlDoc exToml := C70_toml_documents_read exToml_text

/-- C70: and it says nothing else. -/
example {doc : List Stmt} (h : TSays toyToml doc exOdd) :
    doc = [.assign (chars "k") (.simpleArray [.num (toyToml.ofU64 1), .simpleArray [.str (chars "a")]])] :=
  C70_toml_one_reading exOdd_says h

/-! ## C71 -/

theorem tables_assign (doc : List Stmt) (k : List Char) (v : Toml) :
    (tables (doc ++ [.assign k v])).map Prod.fst = (tables doc).map Prod.fst := by
  induction doc with
  | nil => rfl
  | cons x doc ih => cases x <;> simpa [tables] using ih

theorem assigns_assign (doc : List Stmt) (k : List Char) (v : Toml) (h : tables doc ≠ []) :
    ∀ s, assigns s (doc ++ [.assign k v]) = assigns s doc := by
  induction doc with
  | nil => exact absurd rfl h
  | cons x doc ih =>
    intro s
    cases x with
    | table n => rfl
    | sect s' => exact ih (by simpa [tables] using h) s'
    | assign k' v' =>
      simp only [List.cons_append, assigns]
      rw [ih (by simpa [tables] using h)]

theorem Clashes.of_assign {doc : List Stmt} {k : List Char} {v : Toml} (h : Clashes (doc ++ [.assign k v])) : Clashes doc := by
  obtain ⟨n, as, h1, w, h2⟩ := h
  have hn : n ∈ (tables doc).map Prod.fst := by
    rw [← tables_assign doc k v]
    exact List.mem_map.2 ⟨_, h1, rfl⟩
  have ht : tables doc ≠ [] := by
    intro e; rw [e] at hn; cases hn
  rw [assigns_assign doc k v ht] at h2
  obtain ⟨⟨n', as'⟩, h3, rfl⟩ := List.mem_map.1 hn
  exact ⟨n', as', h3, w, h2⟩

/-- **C71**: on every text whatsoever: `parse` panics exactly if the text begins with statements among
which some `[[name]]` header names a key assigned before the first such header (whatever comes after them). -/
theorem C71_toml_panics_iff {txt : List Char} :
    TomlPanics (fun n => parseToml o n txt) ↔ ∃ doc, TBeginsWith o doc txt ∧ Clashes doc := by
  constructor
  · rintro ⟨n, hn⟩
    obtain ⟨doc, ts, c1, h1, h2, h3⟩ := tLoop_panics (u := ⟨[], none, []⟩) (by intro t n e; cases e) (hn n (Nat.le_refl _))
    refine ⟨doc, ⟨ts, c1.txt, h1, ?_⟩, ?_⟩
    · have := h2.lexes h1.no_eof
      have e := tInit_txt txt
      rw [tInit] at e
      rwa [e] at this
    · rcases Classical.em (Clashes doc) with hc | hc
      · exact hc
      · obtain ⟨u, hu, _⟩ := (run_doc h1.plain).2 hc
        rw [h3] at hu
        cases hu
  · rintro ⟨doc, ⟨ts, tail, h1, h2⟩, hc⟩
    obtain ⟨c', hf, _⟩ := h2.feeds (tInit_txt txt)
    obtain ⟨N, hN⟩ := tLoop_doc h1 ⟨[], none, []⟩ hf
    refine ⟨N + doc.length, fun n hn => ?_⟩
    have := hN (n - doc.length) (by omega)
    rw [(run_doc h1.plain).1 hc, show n - doc.length + doc.length = n by omega] at this
    exact this

theorem toml_err_not_ok {txt : List Char} {m : TMap} {why : TMsg} {line col : Nat} (h : TomlFails (fun n => parseToml o n txt) why line col) :
    ¬ TomlOk (fun n => parseToml o n txt) m := by
  rintro ⟨n', hn'⟩
  obtain ⟨n, hn⟩ := h
  obtain ⟨s, e⟩ := hn (n + n') (by omega)
  obtain ⟨s', e'⟩ := hn' (n + n') (by omega)
  simp only at e e'
  rw [e] at e'
  cases e'

theorem toml_err_not_panic {txt : List Char} {why : TMsg} {line col : Nat} (h : TomlFails (fun n => parseToml o n txt) why line col) :
    ¬ TomlPanics (fun n => parseToml o n txt) := by
  rintro ⟨n', hn'⟩
  obtain ⟨n, hn⟩ := h
  obtain ⟨s, e⟩ := hn (n + n') (by omega)
  have e' := hn' (n + n') (by omega)
  simp only at e e'
  rw [e] at e'
  cases e'

/-- C71: `a=1⏎[[a]]` and then something that is no TOML. -/
example : TomlPanics (fun n => parseToml toyToml n (chars "a=1\n[[a]]\n?\"")) := by
  refine C71_toml_panics_iff.2 ⟨[.assign (chars "a") (.num (toyToml.ofU64 1)), .table (chars "a")],
    ⟨[.ident (chars "a"), .equals, .u64 1, .blockOpen, .blockOpen, .ident (chars "a"), .blockClose, .blockClose], chars "\n?\"", ?_, ?_⟩,
    chars "a", [], by simp [tables, assigns], .num (toyToml.ofU64 1), by simp [assigns, qualified]⟩
  · exact .cons (ts := [_, _, _]) (.assign .ident .nat) (.cons (ts := [_, _, _, _, _]) (.table .ident) .nil)
  · refine .at [] (chars "a") (chars "=1\n[[a]]\n?\"") (by decide) .nil (word1 (by decide) (by decide) (by decide) (by decide)) ?_
    refine .at [] (chars "=") (chars "1\n[[a]]\n?\"") (by decide) .nil .equals ?_
    refine .at [] (chars "1") (chars "\n[[a]]\n?\"") (by decide) .nil (num1 (c := '1') (by decide) (by decide)) ?_
    refine .at (chars "\n") (chars "[") (chars "[a]]\n?\"") (by decide) (lay1 (by decide)) .blockOpen ?_
    refine .at [] (chars "[") (chars "a]]\n?\"") (by decide) .nil .blockOpen ?_
    refine .at [] (chars "a") (chars "]]\n?\"") (by decide) .nil (word1 (by decide) (by decide) (by decide) (by decide)) ?_
    refine .at [] (chars "]") (chars "]\n?\"") (by decide) .nil .blockClose ?_
    exact .at [] (chars "]") (chars "\n?\"") (by decide) .nil .blockClose .nil

/-- **C71**: on every text whatsoever: `parse` returns an error exactly if the text is no document and does
not begin with statements that clash. -/
theorem C71_toml_fails_iff {txt : List Char} :
    (∃ why line col, TomlFails (fun n => parseToml o n txt) why line col) ↔
      (∀ doc, ¬ TSays o doc txt) ∧ ∀ doc, TBeginsWith o doc txt → ¬ Clashes doc := by
  constructor
  · rintro ⟨why, line, col, h⟩
    have np : ∀ doc, TBeginsWith o doc txt → ¬ Clashes doc := fun doc h1 h2 =>
      toml_err_not_panic h (C71_toml_panics_iff.2 ⟨doc, h1, h2⟩)
    refine ⟨fun doc hs => ?_, np⟩
    have hc : ¬ Clashes doc := by
      obtain ⟨ts, h1, w, r, _, _, h2⟩ := hs
      cases h1 with
      | all h1 => exact np doc ⟨ts, _, h1, h2⟩
      | @cut doc ts t k v ts' h1 _ _ =>
        obtain ⟨c, hf, _⟩ := h2.feeds (tInit_txt txt)
        obtain ⟨c1, hf, _⟩ := hf.split
        have := hf.lexes h1.no_eof
        rw [tInit_txt] at this
        exact fun hc => np doc ⟨ts, _, h1, this⟩ hc.of_assign
    obtain ⟨ts, h1, h2⟩ := hs
    obtain ⟨u, _, hk⟩ := (run_doc h1.plain).2 hc
    exact toml_err_not_ok h (C70_toml_parses_exactly.2 ⟨doc, ⟨ts, h1, h2⟩, hc, hk.stands⟩)
  · rintro ⟨h1, h2⟩
    rcases C48_toml_stops (o := o) txt with ⟨m, h⟩ | h | h
    · obtain ⟨doc, hs, _⟩ := C70_toml_parses_exactly.1 h
      exact absurd hs (h1 doc)
    · exact h
    · obtain ⟨doc, hb, hc⟩ := C71_toml_panics_iff.1 h
      exact absurd hc (h2 doc hb)

/-- C71: `k=}` is no document and has no clash. -/
example : (∀ doc, ¬ TSays toyToml doc (chars "k=}")) ∧ ∀ doc, TBeginsWith toyToml doc (chars "k=}") → ¬ Clashes doc := by
  have h : ∃ e s, parseToml toyToml 10 (chars "k=}") = .err e s := by
    have : (match parseToml toyToml 10 (chars "k=}") with | .err .. => true | _ => false) = true := by decide +kernel
    cases hx : parseToml toyToml 10 (chars "k=}") with
    | err e s => exact ⟨e, s, rfl⟩
    | ok _ _ => rw [hx] at this; cases this
    | panic => rw [hx] at this; cases this
    | oof => rw [hx] at this; cases this
  obtain ⟨e, s, h⟩ := h
  exact C71_toml_fails_iff.1 ⟨_, _, _, toml_err h⟩

end NS
