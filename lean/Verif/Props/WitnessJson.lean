import Verif.Props.JsonHalts
import Verif.Props.JsonNumbers
import Verif.Props.JsonObjects
import Verif.Props.JsonPos
import Verif.Props.JsonRound
import Verif.Props.JsonShapes
import Verif.Props.JsonStrings
import Verif.Props.JsonValid
import Verif.Props.JsonWhole
import Verif.Props.Stream
import Verif.Props.Truncate
import Verif.Props.Cut
/-!
# The theorems about JSON, applied to concrete programs

Applications of theorems that are not already applied beside their statement.
-/
set_option linter.unusedVariables false
set_option linter.unusedSimpArgs false
namespace NS

/-- C31, C32 for `Conf` and an arbitrary text: the reader returns, or the text is of the named kinds. -/
example (txt : List Char) : ∃ r, Returns (fun n => deserializeJson exJEnv toyFloat n (.named 3) txt) r ∧
      (r = .oof → ∃ ls, JWhole toyFloat ls txt ∧ ¬ BracketsClosed ls) :=
  C31_json_terminates (t := .named 3) toyFloat_laws exJEnv_wf exJEnv_productive (def_lt exConf_def) txt

example : ColonWithoutValue toyFloat (chars "{\"k\":}") ∨
    (¬ (NoTime exJEnv ∧ noTime (.named 3) = true) ∧ HugeInteger toyFloat (chars "{\"k\":}")) :=
  C32_json_panics_only (t := .named 3) toyFloat_laws exJEnv_wf exJEnv_productive (def_lt exConf_def) _ (json_panic 9 (by decide +kernel))

/-- C36: a finite float of either width. -/
example : ∃ txt, serializeJson exJEnv toyFloat true .f64 (.f64 4614253070214989087) = some txt ∧
    Decodes (fun n => deserializeJson exJEnv toyFloat n .f64 txt) (.f64 4614253070214989087) :=
  C36_json_f64_roundtrip true toyFloat_laws _ (by unfold finite64; decide)

example : ∃ txt, serializeJson exJEnv toyFloat true .f32 (.f32 1078530011) = some txt ∧
    Decodes (fun n => deserializeJson exJEnv toyFloat n .f32 txt) (.f32 1078530011) :=
  C36_json_f32_roundtrip true toyFloat_laws _ (by unfold finite32; decide)

/-- C36: `u64::MAX + 1` is rejected for every type, floats included. -/
example (t : Ty) : Rejects (fun n => deserializeJson exJEnv toyFloat n t (chars " 18446744073709551616")) :=
  C36_json_big_integer_rejected t [' '] [] (chars "18446744073709551616") [] (.space (.inl rfl) .nil) (.inl rfl) (by decide)
    (by intro c hc; simp [chars] at hc; rcases hc with rfl | rfl | rfl | rfl | rfl | rfl | rfl | rfl | rfl | rfl | rfl | rfl | rfl | rfl | rfl | rfl | rfl | rfl | rfl | rfl <;> decide)
    (.inl .nil) (by decide +kernel)

/-- C25: the object of `exMs`, read as a `Conf`: the later `n` counts, and `retries` is its default. -/
example : (∃ fs, MembersReadable exJEnv toyFloat fs exMs) ∧ FieldValue exJEnv toyFloat false exMs
      { name := chars "name", ty := .str, rename := some (chars "n"), tyDefault := .str [] } (.str (chars "y")) ∧
    FieldValue exJEnv toyFloat false exMs
      { name := chars "retries", ty := .int .u8, dfltAttr := some (.int 3), tyDefault := .int 0 } (.int 3) := by
  obtain ⟨h1, vs, e, _, h2⟩ := (C25_json_struct_meaning exJEnv_wf exJEnv_productive exConf_at exConf_distinct exMs_text _).1 exMs_reads
  injection e with e
  subst e
  exact ⟨⟨_, h1⟩, h2 0 _ _ rfl rfl, h2 1 _ _ rfl rfl⟩

/-- C26: a struct without fields rejects every member. -/
example : Rejects (fun n => deserializeJson exJEnv toyFloat n (.named 4) (chars " { \"k\" : 1 }")) :=
  C26_json_empty_struct_rejects (i := 4) (cd := false) (nul := false) exJEnv_wf exJEnv_productive rfl (m := (.str (chars "k"), .num (.nat 1))) (ms := []) (tr := false)
    (jtext_spaced [.punct .curlyOpen, .str (chars "k"), .punct .colon, .num (.nat 1), .punct .curlyClose]
      (by simp [JTree.lexemes, commaLexemes, chars]) (by decide))

theorem exReads_a : ReadsAs exJEnv toyFloat .str (.str ['a']) (.str ['a']) :=
  ⟨chars " \"a\"", jtext_spaced [.str ['a']] (by simp [JTree.lexemes]) (by decide), json_ok 5 _ (by decide +kernel)⟩

theorem exReads_1 : ReadsAs exJEnv toyFloat (.int .u8) (.num (.nat 1)) (.int 1) :=
  ⟨chars " 1", jtext_spaced [.num (.nat 1)] (by simp [JTree.lexemes]) (by decide), json_ok 5 _ (by decide +kernel)⟩

theorem exReads_3 : ReadsAs exJEnv toyFloat (.int .u8) (.num (.nat 3)) (.int 3) :=
  ⟨chars " 3", jtext_spaced [.num (.nat 3)] (by simp [JTree.lexemes]) (by decide), json_ok 5 _ (by decide +kernel)⟩

/-- `{"a": 1, "a": 3}` as a map. -/
theorem exDup_text : JText toyFloat (.obj [(.str ['a'], .num (.nat 1)), (.str ['a'], .num (.nat 3))] false) (chars " { \"a\" : 1 , \"a\" : 3 }") :=
  jtext_spaced [.punct .curlyOpen, .str ['a'], .punct .colon, .num (.nat 1), .punct .comma, .str ['a'], .punct .colon, .num (.nat 3), .punct .curlyClose]
    (by simp [JTree.lexemes, commaLexemes]) (by decide)

/-- C28: of two members with the same key the later one wins. -/
example : ∃ m, Decodes (fun n => deserializeJson exJEnv toyFloat n (.hmap .str (.int .u8)) (chars " { \"a\" : 1 , \"a\" : 3 }")) (.seq m) ∧
    mapGet (.str ['a']) m = some (.int 3) := by
  obtain ⟨m, h, _, _, hm⟩ := C28_json_hashmap_last_wins exJEnv_lawful exJEnv_wf exJEnv_productive (k := .str) (t := .int .u8) trivial rfl
    exDup_text (.cons exReads_a exReads_1 (.cons exReads_a exReads_3 .nil))
  exact ⟨m, h, by rw [hm]; simp [lastVal]⟩

example : ∃ m, Decodes (fun n => deserializeJson exJEnv toyFloat n (.bmap .str (.int .u8)) (chars " { \"a\" : 1 , \"a\" : 3 }")) (.seq m) ∧
    mapGet (.str ['a']) m = some (.int 3) := by
  obtain ⟨m, h, _, _, hm⟩ := C28_json_btreemap_last_wins exJEnv_lawful exJEnv_wf exJEnv_productive (k := .str) (t := .int .u8) trivial rfl
    exDup_text (.cons exReads_a exReads_1 (.cons exReads_a exReads_3 .nil))
  exact ⟨m, h, by rw [hm]; simp [lastVal]⟩

/-- C28: and whatever is read comes from the members. -/
example : ∃ es, EntriesRead exJEnv toyFloat .str (.int .u8) [(.str ['a'], .num (.nat 1)), (.str ['a'], .num (.nat 3))] es := by
  obtain ⟨m, h, _⟩ := C28_json_hashmap_last_wins exJEnv_lawful exJEnv_wf exJEnv_productive (k := .str) (t := .int .u8) trivial rfl
    exDup_text (.cons exReads_a exReads_1 (.cons exReads_a exReads_3 .nil))
  exact C28_json_map_accepts_only (c := true) (k := .str) (t := .int .u8) exJEnv_wf exJEnv_productive trivial rfl exDup_text h

/-- C33: an error on the second line. -/
example : ∃ e s, deserializeJson exJEnv toyFloat 9 (.vec (.int .u8)) (chars "[1,\n 2 x]") = .err e s ∧
    (∃ rd rest, chars "[1,\n 2 x]" = rd ++ rest ∧ e.line = newlines rd ∧ e.col = sinceNewline rd) := by
  obtain ⟨e, s, h, _⟩ := Out.errSat_spec (o := deserializeJson exJEnv toyFloat 9 (.vec (.int .u8)) (chars "[1,\n 2 x]"))
    (f := fun e s => e.line == 1 && e.col == 5) (by decide +kernel)
  exact ⟨e, s, h, C33_json_error_position h⟩

/-- C29, C30: the members of a written `Conf`: `n`, `retries`, `level`, `ratio`, without `cache`. -/
example {txt : List Char} (h : serializeJson exJEnv toyFloat false (.named 3) exConfVal = some txt) :
    ∃ ms : List (JTree × JTree), JText toyFloat (.obj ms false) txt ∧
      (ms.map Prod.fst).Sublist [.str (chars "n"), .str (chars "retries"), .str (chars "level"), .str (chars "ratio")] ∧
      JTree.str (chars "n") ∈ ms.map Prod.fst ∧ JTree.str (chars "ratio") ∈ ms.map Prod.fst := by
  obtain ⟨ms, h1, h2, h3⟩ := C30_json_rename_written exJEnv_lawful toyFloat_laws exJEnv_ok (i := 3) (fs := _) (cd := _) (nul := _) rfl
    exConfVal_typed exConfVal_exact h
  exact ⟨ms, h1, h2, h3 _ (List.mem_cons_self ..) rfl rfl, h3 { name := chars "ratio", ty := .f64, tyDefault := .f64 0 } (by simp) rfl rfl⟩

example {txt : List Char} (h : serializeJson exJEnv toyFloat false (.named 3) exConfVal = some txt) :
    ∃ ms : List (JTree × JTree), JText toyFloat (.obj ms false) txt ∧
      (ms.map Prod.fst).Sublist [.str (chars "n"), .str (chars "retries"), .str (chars "level"), .str (chars "ratio")] := by
  refine C29_json_skip_not_written exJEnv_lawful toyFloat_laws exJEnv_ok (i := 3) (fs := _) (cd := _) (nul := _) rfl (vs' := _) ?_ exConfVal_typed exConfVal_exact h
  simp [SkipEq, exConf, SkipEqFields, SkipEqTys, exMeters]

/-- C30: a unit variant is written as its name. -/
example : JText toyFloat (.str (chars "A")) (chars "\"A\"") :=
  C30_json_variant_written (env := exJEnv) exJEnv_ok (i := 1) (j := 0) rfl rfl rfl (chk := true) (by decide +kernel)

/-- C35. -/
example : serializeJson exJEnv toyFloat true (.option (.named 3)) .none = some (chars "null") := C35_json_none_is_null _ _

example : Decodes (fun n => deserializeJson exJEnv toyFloat n (.option (.named 3)) (chars " null")) .none :=
  C35_json_null_is_none _ (jtext_spaced [.word (chars "null")] (by simp [JTree.lexemes, chars]) (by decide))

example : Decodes (fun n => deserializeJson exJEnv toyFloat n (.option (.int .u8)) (chars " 1")) (.some (.int 1)) :=
  (C35_json_some_iff exJEnv_wf exJEnv_productive (t := .int .u8) rfl (J := .num (.nat 1)) (by simp)
    (jtext_spaced [.num (.nat 1)] (by simp [JTree.lexemes]) (by decide)) _).2 ⟨_, rfl, json_ok 5 _ (by decide +kernel)⟩

/-- C37: a string where an array is due. -/
example : Rejects (fun n => deserializeJson exJEnv toyFloat n (.array (.int .u8) 2) (chars " \"a\"")) :=
  C37_json_not_array exJEnv_wf exJEnv_productive (by simp [TyWf, IntKind.textual]) (.array ..) (J := .str ['a'])
    (jtext_spaced [.str ['a']] (by simp [JTree.lexemes]) (by decide)) (by simp)

/-- C17: escapes. -/
example : Decodes (fun n => deserializeJson exJEnv toyFloat n .str (chars "\"a\\u00e9b\"")) (.str ['a', Char.ofNat 0xe9, 'b']) :=
  C17_json_unicode_escape ['a'] ['b'] ['a'] ['b'] (chars "00e9") 0xe9 (.plain (by decide) (by decide) (by decide) .nil)
    (.plain (by decide) (by decide) (by decide) .nil) ⟨'0', '0', 'e', '9', 0, 0, 14, 9, rfl, by simp [HexDig], by simp [HexDig], by simp [HexDig], by simp [HexDig], rfl⟩ (.inl (by decide))

/-- C22: a map with integer keys, and a float that is not finite. -/
example : ¬ Rfc.Text (chars "{1:true}") :=
  C22_json_integer_keys_invalid (env := exJEnv) (fl := toyFloat) .u8 .bool 1 (.bool true) [] true _ (by decide +kernel)

example : ∃ txt, serializeJson exJEnv toyFloat true .f64 (.f64 0x7FF0000000000000) = some txt ∧ ¬ Rfc.Text txt :=
  C22_json_nonfinite_invalid toyFloat_laws true _ (by unfold finite64; decide)

/-- C66: what a successful read tells about the text. -/
example : ∃ v, JsonReading exJEnv toyFloat (.named 3) exMsText v := by
  obtain ⟨n, h⟩ := exMs_reads
  obtain ⟨s, h⟩ := h n (Nat.le_refl _)
  exact ⟨_, C66_json_reads_only toyFloat_laws exJEnv_lawful exJEnv_distinct h⟩

/-- C88: reading until the end. -/
example (txt : List Char) (vs : List Val) : DecodesAll (fun n => jsonUntilEof exJEnv toyFloat n (.named 1) txt) vs ↔
      ∃ ls, JWhole toyFloat ls txt ∧ JsonRow exJEnv toyFloat (List.replicate vs.length (.named 1)) ls vs :=
  C88_json_until_eof_exactly toyFloat_laws exJEnv_lawful exJEnv_distinct _ txt vs

example (txt : List Char) (vs : List Val) : DecodesAll (fun n => ronUntilEof exJEnv toyFloat n (.named 1) txt) vs ↔
      ∃ ls, RWhole toyFloat ls txt ∧ RonRow exJEnv toyFloat (List.replicate vs.length (.named 1)) ls vs :=
  C88_ron_until_eof_exactly toyFloat_laws exJEnv_lawful exJEnv_distinct _ txt vs

/-- C95: a written `Conf` that breaks off anywhere. -/
example {p q : List Char} {txt : List Char} (h : serializeJson exJEnv toyFloat false (.named 3) exConfVal = some txt) (e : txt = p ++ q) :
    (∃ v, Decodes (fun n => deserializeJson exJEnv toyFloat n (.named 3) p) v) ∨ Rejects (fun n => deserializeJson exJEnv toyFloat n (.named 3) p) := by
  refine C95_json_cut_written_returns exJEnv_lawful toyFloat_laws exJEnv_ok exJEnv_wf exJEnv_productive (t := .named 3) (def_lt exConf_def)
    (v := exConfVal) (v' := exConfVal) (chk := false) ?_ exConfVal_typed exConfVal_exact h e
  simp [SkipEq, exConfVal, exConf, SkipEqFields, SkipEqTys, exMeters]

end NS
