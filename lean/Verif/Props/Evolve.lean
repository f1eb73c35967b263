import Verif.Lemmas.JsonEvolve
import Verif.Props.JsonRound
import Verif.Props.JsonMeans
/-!
# C80: documents of an old version of a program

`Evolution`, `TyEvo` (`Verif/Spec/Evolve.lean`) list the changes to a program: adding fields that may be absent,
removing and reordering fields, adding variants, widening integers, `T` to `Option<T>`, `Box`, transparent newtypes,
sets to lists, at any depth.  What the old program wrote is read by the new one, as the value that corresponds to
the old value (`Migrates`).
-/
namespace NS
variable {env env' : Env} {fl : FloatOps} {R : Nat → Nat → Prop}

/-- **C80**: for every value of the old program, `serialize_json` there and `deserialize_json` in the new program give
the corresponding value of the new type. -/
theorem C80_json_evolution (hw : ProgWf env) (hp : Productive env) (hk : LawfulKeys env) (hfl : FloatLaws fl) (hE : JsonEnvOk env)
    (hEx : Extends env env') (hd' : DistinctProg env') (hk' : LawfulKeys env') (hEv : Evolution env env' R) {t u : Ty} {v v' : Val}
    (hu : TyEvo env env' R t u) (ht : TyWf env t) (hs : SkipEq env false t v v') (hT : HasTy env t v') (hX : JsonExact env t v')
    {chk : Bool} {txt : List Char} (h : serializeJson env fl chk t v = some txt) :
    ∃ w, Migrates env env' t u v' w ∧ Decodes (fun n => deserializeJson env' fl n u txt) w := by
  rw [skipEq_serialize hs] at h
  unfold serializeJson at h
  split at h
  · cases h
  · injection h with h
    subst h
    exact json_evolves hw hp hk hfl hE hEx hd' hk' hEv ht hT hX hu

/-! A second version of `Conf` and of the program: `name` is called `title` in the source (and still `n` in
JSON), `retries` is a `u32`, `level` is gone, `ratio` comes first and is an `Option`, there is a new field. -/

/-- The new `Conf` (definition 5). -/
def exConf2 : Def := .struct
  [ { name := chars "ratio", ty := .option .f64, optSyn := true, tyDefault := .none },
    { name := chars "title", ty := .str, rename := some (chars "n"), tyDefault := .str [] },
    { name := chars "retries", ty := .int .u32, tyDefault := .int 0 },
    { name := chars "verbose", ty := .bool, dfltAttr := some (.bool true), tyDefault := .bool false } ]
  false false

/-- The new program. -/
noncomputable def exJEnv2 : Env :=
  lawEnv [exNode, exEnum, exMeters, exConf, exEmpty, exConf2]
    [{ ty := .int .u8, into := fun v => match v with | .struct [x] => x | x => x,
       back := fun v => .struct [v] }]

@[simp] theorem exJEnv2_defs : exJEnv2.defs = [exNode, exEnum, exMeters, exConf, exEmpty, exConf2] := rfl

theorem exJEnv2_extends : Extends exJEnv exJEnv2 := by
  refine ⟨fun i d h => ?_, fun i px h => h, rfl⟩
  simp only [exJEnv_defs] at h
  match i with
  | 0 | 1 | 2 | 3 | 4 => simpa using h
  | n + 5 => simp at h

theorem exJEnv2_distinct : DistinctProg exJEnv2 := by
  have h0 := exJEnv_distinct
  constructor
  · intro i fs cd nul h
    simp only [exJEnv2_defs] at h
    match i, h with
    | 0, h => exact h0.fields 0 fs cd nul (by simpa using h)
    | 1, h => exact h0.fields 1 fs cd nul (by simpa using h)
    | 2, h => exact h0.fields 2 fs cd nul (by simpa using h)
    | 3, h => exact h0.fields 3 fs cd nul (by simpa using h)
    | 4, h => exact h0.fields 4 fs cd nul (by simpa using h)
    | 5, h =>
      simp [exConf2] at h
      obtain ⟨rfl, _⟩ := h
      simp [DistinctNames, Field.jsonName, chars]
    | n + 6, h => simp at h
  · intro i vars h
    simp only [exJEnv2_defs] at h
    match i, h with
    | 0, h => exact h0.variants 0 vars (by simpa using h)
    | 1, h => exact h0.variants 1 vars (by simpa using h)
    | 2, h => exact h0.variants 2 vars (by simpa using h)
    | 3, h => exact h0.variants 3 vars (by simpa using h)
    | 4, h => exact h0.variants 4 vars (by simpa using h)
    | 5, h => simp [exConf2] at h
    | n + 6, h => simp at h
  · intro i vars h
    simp only [exJEnv2_defs] at h
    match i, h with
    | 0, h => exact h0.varFields 0 vars (by simpa using h)
    | 1, h => exact h0.varFields 1 vars (by simpa using h)
    | 2, h => exact h0.varFields 2 vars (by simpa using h)
    | 3, h => exact h0.varFields 3 vars (by simpa using h)
    | 4, h => exact h0.varFields 4 vars (by simpa using h)
    | 5, h => simp [exConf2] at h
    | n + 6, h => simp at h

/-- Only `Conf` is replaced. -/
def exReplaced (i j : Nat) : Prop := i = 3 ∧ j = 5

theorem exEvolution : Evolution exJEnv exJEnv2 exReplaced := by
  rintro i j ⟨rfl, rfl⟩
  refine ⟨exConf, exConf2, by simp, by simp, .struct ⟨?_, ?_, by simp⟩⟩
  · intro f hf g hg
    simp only [List.mem_cons, List.not_mem_nil, or_false] at hf hg
    rcases hf with rfl | rfl | rfl | rfl | rfl <;> rcases hg with rfl | rfl | rfl | rfl <;>
      simp [Field.jsonName, chars, FieldEvo]
    · exact .same
    · exact .widen rfl rfl fun i h => by
        simp [IntKind.inRange, IntKind.lo, IntKind.hi, IntKind.signed, IntKind.bytes] at h ⊢; omega
    · exact .optional .same
  · intro g hg
    simp only [List.mem_cons, List.not_mem_nil, or_false] at hg
    rcases hg with rfl | rfl | rfl | rfl
    · exact .inl (.inr (.inl rfl))
    · exact .inr ⟨_, List.mem_cons_self .., rfl, rfl, fun h => by cases h⟩
    · exact .inr ⟨_, List.mem_cons_of_mem _ (List.mem_cons_self ..), rfl, rfl, fun h => by cases h⟩
    · exact .inl (.inr (.inr (.inr rfl)))

/-- A list of optional old `Conf`s is read as a list of new ones. -/
example : ∃ w, Migrates exJEnv exJEnv2 (.vec (.option (.named 3))) (.linked (.option (.box (.named 5)))) (.seq [.some exConfVal, .none]) w ∧
    Decodes (fun n => deserializeJson exJEnv2 toyFloat n (.linked (.option (.box (.named 5))))
      (serJson exJEnv toyFloat (.vec (.option (.named 3))) (.seq [.some exConfVal, .none]))) w := by
  refine C80_json_evolution (v := .seq [.some exConfVal, .none]) exJEnv_wf exJEnv_productive exJEnv_lawful toyFloat_laws exJEnv_ok
    exJEnv2_extends exJEnv2_distinct (lawEnv_lawful _ _) exEvolution (R := exReplaced)
    (.list .vec .linked (.option (.boxed (.named ⟨rfl, rfl⟩)))) (by simp [TyWf]) ?_ ?_ ?_ (chk := false) rfl
  · simp [SkipEq, SkipEqAll, exConfVal, exConf, SkipEqFields, SkipEqTys, exMeters]
  · simp [HasTy, AllTy, exConfVal, exConf, FieldsTy, exMeters, TysTy, IntKind.inRange, IntKind.lo, IntKind.hi, IntKind.signed,
      IntKind.bytes, u64Max, isizeMax]
  · simp [JsonExact, Holds, HoldsAll, exConfVal, exConf, HoldsFields, HoldsTys, exMeters, JsonNodeOk, IntKind.textual, Field.absent,
      finite64]
    constructor
    · intro h; cases h with
      | transparent hd => simp [exConf] at hd
    · intro h
      cases h with
      | transparent hd hv =>
        simp [exMeters] at hd
        subst hd
        cases hv

/-- What becomes of the `Conf` above: `{"n":"a\"b","retries":7,"level":12,"ratio":..}`. -/
example : Migrates exJEnv exJEnv2 (.named 3) (.named 5) exConfVal
    (.struct [.some (.f64 5), .str ['a', '"', 'b'], .int 7, .bool true]) := by
  refine .struct (fun f g v w => Migrates exJEnv exJEnv2 f.ty g.ty v w) (show exJEnv.defs[3]? = some exConf from rfl) (show exJEnv2.defs[5]? = some exConf2 from rfl) ⟨rfl, ?_, ?_⟩ fun _ _ _ _ h => h
  · intro g w f v hg hf
    simp only [List.zip_cons_cons, List.zip_nil_right, List.mem_cons, List.not_mem_nil, or_false, Prod.mk.injEq] at hg hf
    rcases hg with ⟨rfl, rfl⟩ | ⟨rfl, rfl⟩ | ⟨rfl, rfl⟩ | ⟨rfl, rfl⟩ <;>
      rcases hf with ⟨rfl, rfl⟩ | ⟨rfl, rfl⟩ | ⟨rfl, rfl⟩ | ⟨rfl, rfl⟩ | ⟨rfl, rfl⟩ <;>
      simp [Field.jsonName, chars]
    · intro _; exact .something (by intro h; cases h) .same
    · intro _; exact .same
    · intro _; exact .widen
  · intro g w hg hc
    simp only [List.zip_cons_cons, List.zip_nil_right, List.mem_cons, List.not_mem_nil, or_false, Prod.mk.injEq] at hg
    rcases hg with ⟨rfl, rfl⟩ | ⟨rfl, rfl⟩ | ⟨rfl, rfl⟩ | ⟨rfl, rfl⟩
    · exact absurd rfl ((hc.resolve_left (by simp)) { name := chars "ratio", ty := .f64, tyDefault := .f64 0 } (.f64 5)
        (by simp only [List.zip_cons_cons]; simp) ⟨rfl, fun h => by cases h⟩)
    · exact absurd rfl ((hc.resolve_left (by simp)) { name := chars "name", ty := .str, rename := some (chars "n"), tyDefault := .str [] } (.str ['a', '"', 'b'])
        (by simp only [List.zip_cons_cons]; simp) ⟨rfl, fun h => by cases h⟩)
    · exact absurd rfl ((hc.resolve_left (by simp)) { name := chars "retries", ty := .int .u8, dfltAttr := some (.int 3), tyDefault := .int 0 } (.int 7)
        (by simp only [List.zip_cons_cons]; simp) ⟨rfl, fun h => by cases h⟩)
    · rfl

end NS
