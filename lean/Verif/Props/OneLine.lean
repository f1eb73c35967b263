import Verif.Lemmas.OneLine
import Verif.Props.JsonRound
import Verif.Props.RonRound
import Verif.Props.Reread
/-! # Written texts are one line (C98) -/
namespace NS
variable {env : Env} {fl : FloatOps} {chk : Bool}

theorem jsonEsc_printable (c : Char) : AllCh (fun c => ¬ isControl c) (jsonEsc c) := by
  have hex : ∀ n, AllCh (fun c => ¬ isControl c) (hex4 n) := by
    have : ∀ m, m < 16 → ¬ isControl m.digitChar := by unfold isControl; decide
    intro n c hc
    simp only [hex4, List.mem_cons, List.not_mem_nil, or_false] at hc
    rcases hc with rfl | rfl | rfl | rfl <;> exact this _ (Nat.mod_lt _ (by decide))
  have lit : ∀ {s : List Char}, s.all (fun c => decide (¬ (c.toNat < 32 ∨ c.toNat = 127))) = true → AllCh (fun c => ¬ isControl c) s := by
    intro s h c hc
    have := List.all_eq_true.1 h c hc
    simp only [decide_eq_true_eq] at this
    exact this
  unfold jsonEsc
  split
  · exact lit (by decide)
  split
  · exact lit (by decide)
  split
  · exact lit (by decide)
  split
  · exact lit (by decide)
  split
  · exact lit (by decide)
  split
  · exact .app (lit (by decide)) (hex _)
  rename_i hc
  split
  · exact lit (by decide)
  split
  · exact lit (by decide)
  · exact .cons hc .nil

/-- **C98** (JSON): a written text contains no control character, in particular no line break, whatever the value
(strings with any characters in them, all floats). -/
theorem C98_json_one_line (hfl : FloatLaws fl) (hN : NamesPrintable env) {t : Ty} {v : Val} {txt : List Char}
    (h : serializeJson env fl chk t v = some txt) : ∀ c ∈ txt, ¬ isControl c := by
  unfold serializeJson at h
  split at h
  · cases h
  · injection h with h
    subst h
    exact serJson_ch (Q := fun c => ¬ isControl c) ⟨fun c h1 h2 => by unfold isControl; omega⟩ hfl jsonEsc_printable hN v t

/-- **C98** (RON): a written text contains no line break, no tab and no NUL. -/
theorem C98_ron_one_line (hfl : FloatLaws fl) (hN : NamesPrintable env) {t : Ty} {v : Val} {txt : List Char}
    (h : serializeRon env fl chk t v = some txt) : ∀ c ∈ txt, c ≠ '\n' ∧ c ≠ '\r' ∧ c ≠ '\t' ∧ c ≠ '\x00' := by
  unfold serializeRon at h
  split at h
  · cases h
  · injection h with h
    subst h
    refine serRon_ch (Q := fun c => c ≠ '\n' ∧ c ≠ '\r' ∧ c ≠ '\t' ∧ c ≠ '\x00') ⟨fun c h1 h2 => ?_⟩ hfl ?_
      (fun d hd nm hm c hc => ?_) v t
    · refine ⟨?_, ?_, ?_, ?_⟩ <;> (rintro rfl; revert h1; decide)
    · intro c
      unfold ronEsc
      have lit : ∀ {s : List Char}, s.all (fun c => decide (c ≠ '\n' ∧ c ≠ '\r' ∧ c ≠ '\t' ∧ c ≠ '\x00')) = true →
          AllCh (fun c => c ≠ '\n' ∧ c ≠ '\r' ∧ c ≠ '\t' ∧ c ≠ '\x00') s := by
        intro s h c hc
        have := List.all_eq_true.1 h c hc
        simp only [decide_eq_true_eq] at this
        exact this
      split
      · exact lit (by decide)
      rename_i h1
      split
      · exact lit (by decide)
      rename_i h2
      split
      · exact lit (by decide)
      rename_i h3
      split
      · exact lit (by decide)
      rename_i h4
      split
      · exact lit (by decide)
      split
      · exact lit (by decide)
      · exact .cons ⟨h1, h2, h3, h4⟩ .nil
    · have := hN d hd nm hm c hc
      refine ⟨?_, ?_, ?_, ?_⟩ <;> (rintro rfl; exact this (by unfold isControl; decide))

theorem linesOf_line {acc s r : List Char} (h : '\n' ∉ s) : linesOf acc (s ++ '\n' :: r) = (acc ++ s) :: linesOf [] r := by
  induction s generalizing acc with
  | nil => simp [linesOf]
  | cons c s ih =>
    simp only [List.mem_cons, not_or] at h
    rw [List.cons_append, linesOf, if_neg (fun e => h.1 e.symm), ih h.2]
    simp

theorem linesOf_texts {xs : List (List Char)} (h : ∀ x ∈ xs, '\n' ∉ x) : linesOf [] (xs.flatMap fun x => x ++ ['\n']) = xs := by
  induction xs with
  | nil => rfl
  | cons x xs ih =>
    rw [List.flatMap_cons, List.append_assoc]
    show linesOf [] (x ++ '\n' :: _) = _
    rw [linesOf_line (h x (by simp)), List.nil_append]
    show x :: linesOf [] (xs.flatMap fun x => x ++ ['\n']) = _
    rw [ih fun x hx => h x (by simp [hx])]

/-- **C98** (JSON lines): values of any types, each written on a line of its own, are found again by splitting the
text at the line breaks and reading every line with `deserialize_json`. -/
theorem C98_json_lines (hk : LawfulKeys env) (hfl : FloatLaws fl) (hE : JsonEnvOk env) (hN : NamesPrintable env)
    (docs : List (Ty × Val × List Char)) (hT : ∀ d ∈ docs, HasTy env d.1 d.2.1 ∧ JsonExact env d.1 d.2.1)
    (hw : ∀ d ∈ docs, serializeJson env fl chk d.1 d.2.1 = some d.2.2) :
    linesOf [] (docs.flatMap fun d => d.2.2 ++ ['\n']) = docs.map (·.2.2) ∧
      ∀ d ∈ docs, Decodes (fun n => deserializeJson env fl n d.1 d.2.2) d.2.1 := by
  constructor
  · rw [show (docs.flatMap fun d => d.2.2 ++ ['\n']) = (docs.map (·.2.2)).flatMap fun x => x ++ ['\n'] by
      rw [List.flatMap_map]]
    refine linesOf_texts fun x hx => ?_
    obtain ⟨d, hd, rfl⟩ := List.mem_map.1 hx
    exact fun hm => C98_json_one_line hfl hN (hw d hd) '\n' hm (by unfold isControl; decide)
  · intro d hd
    have := hw d hd
    unfold serializeJson at this
    split at this
    · cases this
    · injection this with e
      rw [← e]
      exact json_roundtrip hk hfl hE (hT d hd).1 ((hT d hd).2.text hfl)

/-- **C98** (RON lines). -/
theorem C98_ron_lines (hk : LawfulKeys env) (hfl : FloatLaws fl) (hE : RonEnvOk env) (hN : NamesPrintable env)
    (docs : List (Ty × Val × List Char)) (hT : ∀ d ∈ docs, HasTy env d.1 d.2.1 ∧ RonExact env d.1 d.2.1)
    (hw : ∀ d ∈ docs, serializeRon env fl chk d.1 d.2.1 = some d.2.2) :
    linesOf [] (docs.flatMap fun d => d.2.2 ++ ['\n']) = docs.map (·.2.2) ∧
      ∀ d ∈ docs, Decodes (fun n => deserializeRon env fl n d.1 d.2.2) d.2.1 := by
  constructor
  · rw [show (docs.flatMap fun d => d.2.2 ++ ['\n']) = (docs.map (·.2.2)).flatMap fun x => x ++ ['\n'] by
      rw [List.flatMap_map]]
    refine linesOf_texts fun x hx => ?_
    obtain ⟨d, hd, rfl⟩ := List.mem_map.1 hx
    exact fun hm => (C98_ron_one_line hfl hN (hw d hd) '\n' hm).1 rfl
  · intro d hd
    have := hw d hd
    unfold serializeRon at this
    split at this
    · cases this
    · injection this with e
      rw [← e]
      exact ron_round hk hfl hE (hT d hd).1 ((hT d hd).2.text hfl hE)

/-- **C98** (limits): RON writes other control characters of strings as they are, and names are written as they
are: a `rename` with a line break gives two lines. -/
theorem C98_limits :
    serializeRon exJEnv toyFloat true .str (.str ['\x01', '\x7f']) = some ['"', '\x01', '\x7f', '"'] ∧
    serializeJson { exJEnv with defs := [.struct [{ name := ['x'], ty := .int .u8, rename := some ['a', '\n'] }] false false] } toyFloat true
      (.named 0) (.struct [.int 1]) = some ['{', '"', 'a', '\n', '"', ':', '1', '}'] :=
  ⟨by decide +kernel, by decide +kernel⟩

/-! ### Examples -/

theorem exJEnv_printable : NamesPrintable exJEnv := by
  have : ∀ d ∈ exJEnv.defs, (d.names.all fun nm => nm.all fun c => decide (¬ (c.toNat < 32 ∨ c.toNat = 127))) = true := by
    rw [exJEnv_defs]
    decide +kernel
  intro d hd nm hm c hc
  have h := List.all_eq_true.1 (List.all_eq_true.1 (this d hd) nm hm) c hc
  simp only [decide_eq_true_eq] at h
  exact h

/-- A string of two lines and a `Conf`, each on a line of its own. -/
example : ∃ txt, serializeJson exJEnv toyFloat true (.named 3) exConfVal = some txt ∧
    linesOf [] (chars "\"a\\nb\"" ++ '\n' :: (txt ++ ['\n'])) = [chars "\"a\\nb\"", txt] := by
  obtain ⟨txt, h⟩ : ∃ txt, serializeJson exJEnv toyFloat true (.named 3) exConfVal = some txt := Option.isSome_iff_exists.1 (by decide +kernel)
  refine ⟨txt, h, ?_⟩
  have := (C98_json_lines (chk := true) exJEnv_lawful toyFloat_laws exJEnv_ok exJEnv_printable
    [(.str, .str ['a', '\n', 'b'], chars "\"a\\nb\""), (.named 3, exConfVal, txt)]
    (by
      intro d hd
      simp only [List.mem_cons, List.not_mem_nil, or_false] at hd
      rcases hd with rfl | rfl
      · exact ⟨by simp [HasTy], by simp [JsonExact, Holds, JsonNodeOk]⟩
      · exact ⟨exConfVal_typed, exConfVal_exact⟩)
    (by
      intro d hd
      simp only [List.mem_cons, List.not_mem_nil, or_false] at hd
      rcases hd with rfl | rfl
      · decide +kernel
      · exact h)).1
  simpa using this

example : ∀ c ∈ (serializeRon exJEnv toyFloat true (.named 3) exConfVal).getD [], c ≠ '\n' ∧ c ≠ '\r' ∧ c ≠ '\t' ∧ c ≠ '\x00' :=
  C98_ron_one_line (chk := true) (t := .named 3) (v := exConfVal) toyFloat_laws exJEnv_printable (by decide +kernel)

end NS
