import Verif.Props.RonHalts
import Verif.Props.RonNumbers
import Verif.Props.RonObjects
import Verif.Props.RonRound
import Verif.Props.RonWhole
import Verif.Props.Toml
import Verif.Props.ErrText
/-!
# The theorems about RON and TOML, applied to concrete programs

Applications of theorems that are not already applied beside their statement.

```rust
#[derive(DeRon)] enum Shape { Dot, Box { w: u8, h: Option<u8> } }
```
-/
set_option linter.unusedVariables false
set_option linter.unusedSimpArgs false
namespace NS

/-- The fields of `Shape::Box`. -/
def exBoxFields : List Field := [ { name := ['w'], ty := .int .u8, tyDefault := .int 0 },
  { name := ['h'], ty := .option (.int .u8), optSyn := true, tyDefault := .none } ]

/-- The variants of `Shape`. -/
def exShapeVars : List Variant := [ { name := chars "Dot", shape := .unit }, { name := chars "Box", shape := .named exBoxFields } ]

/-- The program. -/
noncomputable def exShape : Env := lawEnv [.enum exShapeVars] []

theorem exShape_lawful : LawfulKeys exShape := lawEnv_lawful _ _

theorem exShape_wf : ProgWf exShape := by
  constructor
  · intro d hd t ht
    simp [exShape, lawEnv] at hd
    subst hd
    simp [Def.tys, exShapeVars, exBoxFields] at ht
    rcases ht with rfl | rfl <;> simp [TyWf, IntKind.textual]
  · intro p hp
    simp [exShape, lawEnv] at hp

theorem exBox_called : VariantCalled exShapeVars (chars "Box") 1 { name := chars "Box", shape := .named exBoxFields } := by
  refine ⟨rfl, rfl, ⟨by decide, by decide⟩, ?_⟩
  simp [exShapeVars, chars]

theorem exBox_distinct : DistinctNames exBoxFields := by simp [DistinctNames, exBoxFields, Field.jsonName]

/-- C45: every text stops the reader. -/
example (txt : List Char) : ∃ r, Returns (fun n => deserializeRon exShape toyFloat n (.vec (.named 0)) txt) r ∧ r ≠ .oof :=
  C45_ron_terminates (t := .vec (.named 0)) exShape_wf rfl (show (0 : Nat) < 1 by decide) txt

/-- C47: a minus sign before an unsigned number. -/
example : Rejects (fun n => deserializeRon exShape toyFloat n (.int .u16) (chars " -5")) :=
  C47_ron_unsigned_minus .u16 rfl rfl [' '] ['5'] [] (.space (.inl rfl) .nil) (by decide)
    (by intro c hc; simp at hc; subst hc; decide) (.inl .nil)

/-- One member `w: 7`. -/
def exBoxPs : List RMember := [(['w'], .num (.nat 7), .int 7)]

theorem exBoxPs_known : KnownMembers exBoxFields exBoxPs := by
  intro p hp
  simp only [exBoxPs, List.mem_cons, List.not_mem_nil, or_false] at hp
  subst hp
  exact ⟨⟨by decide, by decide⟩, by simp [Field.jsonName, exBoxFields]⟩

theorem exBoxPs_reads : ∀ p ∈ exBoxPs, ∀ f ∈ exBoxFields, f.skip = false → f.jsonName = p.1 → RonMeans exShape toyFloat f.ty p.2.1 p.2.2 := by
  intro p hp f hf
  simp only [exBoxPs, exBoxFields, List.mem_cons, List.not_mem_nil, or_false] at hp hf
  subst hp
  rcases hf with rfl | rfl <;> simp [Field.jsonName]
  exact .int rfl rfl (by decide) (fun _ => ⟨_, rfl⟩)

/-- C43: `Box(w: 7)`: the absent `Option` is `None`. -/
example : ∃ vs, Decodes (fun n => deserializeRon exShape toyFloat n (.named 0) (chars " Box ( w : 7 )")) (.variant 1 vs) ∧ vs.length = 2 ∧
    ∀ (j : Nat) f w, exBoxFields[j]? = some f → vs[j]? = some w → FieldGets false exBoxPs f w := by
  refine C43_ron_variant_fields (env := exShape) (fl := toyFloat) exShape_lawful (i := 0) rfl exBox_called rfl exBox_distinct exBoxPs exBoxPs_known
    exBoxPs_reads ?_ (tr := false) ?_
  · simp [exBoxFields, exBoxPs, Field.jsonName, Field.mayBeAbsent]
  · refine rtext_spaced [.word (chars "Box"), .punct .parenOpen, .word (chars "w"), .punct .colon, .num (.nat 7), .punct .parenClose] ?_ (by decide)
    simp [RTree.lexemes, commaLexemes, exBoxPs, chars]

/-- C43: `Box()` lacks `w`. -/
example : RejectsWith (fun n => deserializeRon exShape toyFloat n (.named 0) (chars " Box ( )")) (.missingKey ['w']) := by
  refine C43_ron_missing_field_in_variant (env := exShape) (fl := toyFloat) exShape_lawful (i := 0) rfl exBox_called rfl exBox_distinct []
    (by intro p hp; simp at hp) (by intro p hp; simp at hp) (k := 0) (f := { name := ['w'], ty := .int .u8, tyDefault := .int 0 }) rfl (by simp) ?_ (by omega)
    (tr := false) ?_
  · simp [Field.mayBeAbsent]
  · refine rtext_spaced [.word (chars "Box"), .punct .parenOpen, .punct .parenClose] ?_ (by decide)
    simp [RTree.lexemes, commaLexemes, chars]

/-- C42: `Box(w: 7, z`: there is no field `z`. -/
example : RejectsWith (fun n => deserializeRon exShape toyFloat n (.named 0) (chars " Box ( w : 7 , z @")) (.unexpectedKey ['z']) := by
  refine C42_ron_unknown_field_in_variant (env := exShape) (fl := toyFloat) exShape_lawful (i := 0) rfl exBox_called rfl (by simp [exBoxFields])
    exBox_distinct ⟨by decide, by decide⟩ (by simp [exBoxFields, Field.jsonName]) exBoxPs exBoxPs_known exBoxPs_reads (tail := chars " @") ?_
  have e : Lexeme.word (chars "Box") :: Lexeme.punct Tok.parenOpen :: (memberLexemes exBoxPs ++ [Lexeme.word ['z']]) =
      [.word (chars "Box"), .punct .parenOpen, .word ['w'], .punct .colon, .num (.nat 7), .punct .comma, .word ['z']] := by
    simp [memberLexemes, RTree.lexemes, exBoxPs]
  rw [e]
  exact (rspaced_doc (.inr ⟨_, rfl⟩) (by decide)).1

/-- C64: what a successful read tells about the text. -/
example : RonReading exShape toyFloat (.named 0) (chars "Box(w:7)") (.variant 1 [.int 7, .none]) := by
  obtain ⟨s, h⟩ := Out.isOk_spec (r := deserializeRon exShape toyFloat 9 (.named 0) (chars "Box(w:7)")) (v := .variant 1 [.int 7, .none]) (by decide +kernel)
  refine C64_ron_reads_only toyFloat_laws exShape_lawful ?_ h
  constructor
  · intro i fs cd nn h
    match i with
    | 0 => simp [exShape, lawEnv] at h
    | n + 1 => simp [exShape, lawEnv] at h
  · intro i vars h
    match i with
    | 0 =>
      simp [exShape, lawEnv] at h
      subst h
      simp [DistinctVariants, exShapeVars, chars, Variant.jsonName]
    | n + 1 => simp [exShape, lawEnv] at h
  · intro i vars h v hv fs hf
    match i with
    | 0 =>
      simp [exShape, lawEnv] at h
      subst h
      simp only [exShapeVars, List.mem_cons, List.not_mem_nil, or_false] at hv
      rcases hv with rfl | rfl
      · simp at hf
      · simp at hf; subst hf; exact exBox_distinct
    | n + 1 => simp [exShape, lawEnv] at h

/-- C44: an error on the second line. -/
example : ∃ e s, deserializeRon exShape toyFloat 9 (.named 0) (chars "Box(\nz:7)") = .err e s ∧
    ∃ rd rest, chars "Box(\nz:7)" = rd ++ rest ∧ e.line = newlines rd := by
  obtain ⟨e, s, h, _⟩ := Out.errSat_spec (o := deserializeRon exShape toyFloat 9 (.named 0) (chars "Box(\nz:7)"))
    (f := fun e s => e.line == 1) (by decide +kernel)
  exact ⟨e, s, h, C44_ron_error_line h⟩

/-- C48: a document whose second statement clashes. -/
example : ∃ p hd r name m v, chars "a=1\n[[a]]" = p ++ hd ++ r ∧ TomlOk (fun n => parseToml toyToml n p) m ∧
      TomlOk (fun n => parseToml toyToml n hd) [(name, .array [[]])] ∧ (name, v) ∈ m ∧ ∀ ts, v ≠ .array ts :=
  C48_toml_panics_only C48_toml_panics

/-- C52: a string with an escaped quote. -/
example : TomlOk (fun n => parseToml toyToml n (chars "k = \"a\\\"b\"")) [(chars "k", .str (chars "a\"b"))] :=
  C52_toml_string (k := chars "k") (b := ['a', '\\', '"', 'b']) (s := ['a', '"', 'b']) (r := []) (key1 (by decide) (by decide) (by decide)) (by decide)
    (.plain (by decide) (by decide) (by decide) (.esc (.plain (by decide) (by decide) (by decide) .nil))) (.inl .nil)

/-- C83: the text of an error. -/
example (D : DebugOps) : ∃ e, Returns (fun n => deBin exEnv true [9, 3, 0, 1] n (.named 1) 1) (.err e 3) ∧
      binErrText e = "Bin deserialize error at 0: Unknown variant ".toList ++ (toString 3).toList :=
  C83_bin_unknown_variant_text (env := exEnv) (chk := true) 1 _ rfl [9] [1] 3 0 (by decide) (by decide)

end NS
