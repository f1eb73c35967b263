import Verif.Lemmas.RonEvolve2
import Verif.Props.RonObjects
import Verif.Props.Stream
import Verif.Props.Evolve
import Verif.Props.Reread
/-!
# C90: RON texts of an old version of a program

`REvolution`, `RTyEvo` (`Verif/Spec/RonEvolve.lean`) list the changes to a program: adding fields that may be absent,
reordering fields, adding and reordering variants, widening integers, `T` to `Option<T>`, `Box`, sets to lists, tuples,
arrays and tuple structs to each other, at any depth.  What the old program wrote is read by the new one, as the value
that corresponds to the old value (`RMigrates`).  A written field may not be removed.
-/
namespace NS
variable {env env' : Env} {fl : FloatOps} {R : Nat → Nat → Prop}

/-- **C90**: for every value of the old program, `serialize_ron` there and `deserialize_ron` in the new program give
the corresponding value of the new type.  (No variant with data of the old program is called `None`.) -/
theorem C90_ron_evolution (hk : LawfulKeys env) (hfl : FloatLaws fl) (hE : RonEnvOk env)
    (hN : ∀ (i : Nat) vars, env.defs[i]? = some (.enum vars) → ∀ v ∈ vars, v.shape ≠ .unit → v.name ≠ ['N', 'o', 'n', 'e'])
    (hEx : Extends env env') (hk' : LawfulKeys env') (hEv : REvolution env env' R) {t u : Ty} {v v' : Val}
    (hu : RTyEvo env env' R t u) (hs : SkipEq env false t v v') (hT : HasTy env t v') (hX : RonExact env t v')
    {chk : Bool} {txt : List Char} (h : serializeRon env fl chk t v = some txt) :
    ∃ w, RMigrates env env' t u v' w ∧ Decodes (fun n => deserializeRon env' fl n u txt) w := by
  rw [rSkipEq_serialize hs] at h
  unfold serializeRon at h
  split at h
  · cases h
  · injection h with h
    subst h
    exact ron_evolves hk hfl hE hN hEx hk' hEv hT hX hu

theorem rdoc_members {qs : List (List Char × RTree)} {txts : List (List Char)} (hl : qs.length = txts.length)
    (h : ∀ p ∈ qs.zip txts, RLSpells fl (.word p.1.1 :: .punct .colon :: p.1.2.lexemes) p.2) {ls r tail}
    (hd : RDoc fl ls r tail) :
    RDoc fl ((qs.flatMap fun q => .word q.1 :: .punct .colon :: (q.2.lexemes ++ [.punct .comma])) ++ ls) (commaEach txts ++ r) tail := by
  induction qs generalizing txts with
  | nil =>
    cases txts with
    | nil => exact hd
    | cons t ts => simp at hl
  | cons q qs ih =>
    cases txts with
    | nil => simp at hl
    | cons x xs =>
      have h1 := h (q, x) (by simp)
      have h2 := ih (txts := xs) (by simpa using hl) fun p hp => h p (by simp [hp])
      have h3 : RDoc fl (.punct .comma :: _) (',' :: (commaEach xs ++ r)) tail := RDoc.cons (w := []) (s := [',']) .nil .comma trivial h2
      have := h1 _ _ _ (RSepText.cons (by simp)) h3
      simpa [commaEach, List.flatMap_cons] using this

theorem serRonFields_append {fs gs : List Field} {vs ws : List Val} (hl : fs.length = vs.length) :
    serRonFields env fl true (fs ++ gs) (vs ++ ws) = serRonFields env fl true fs vs ++ serRonFields env fl true gs ws := by
  induction fs generalizing vs with
  | nil =>
    cases vs with
    | nil => simp [serRonFields]
    | cons v vs => simp at hl
  | cons f fs ih =>
    cases vs with
    | nil => simp at hl
    | cons v vs =>
      have := ih (vs := vs) (by simpa using hl)
      simp only [List.cons_append, serRonFields, this]
      split
      · rfl
      · split <;> rfl

theorem fieldsTy_take {fs gs : List Field} {vs ws : List Val} (hl : fs.length = vs.length) (h : FieldsTy env (fs ++ gs) (vs ++ ws)) :
    FieldsTy env fs vs := by
  induction fs generalizing vs with
  | nil =>
    cases vs with
    | nil => simp [FieldsTy]
    | cons v vs => simp at hl
  | cons f fs ih =>
    cases vs with
    | nil => simp at hl
    | cons v vs =>
      simp only [List.cons_append, FieldsTy] at h ⊢
      exact ⟨h.1, ih (by simpa using hl) h.2⟩

theorem holdsFields_take {P : Ty → Val → Prop} {fs gs : List Field} {vs ws : List Val} (hl : fs.length = vs.length)
    (h : HoldsFields env P Field.absentValue false true (fs ++ gs) (vs ++ ws)) :
    HoldsFields env P Field.absentValue false true fs vs := by
  induction fs generalizing vs with
  | nil =>
    cases vs with
    | nil => simp [HoldsFields]
    | cons v vs => simp at hl
  | cons f fs ih =>
    cases vs with
    | nil => simp at hl
    | cons v vs =>
      simp only [List.cons_append, HoldsFields] at h ⊢
      exact ⟨h.1, ih (by simpa using hl) h.2⟩

/-- **C90**: no written field may be removed: if `f` is the first field of the old struct that the new one no longer has,
the new program rejects every value of the old one in which `f` is written, with the error `UnexpectedKey`. -/
theorem C90_ron_removed_field (hk : LawfulKeys env) (hfl : FloatLaws fl) (hE : RonEnvOk env)
    (hN : ∀ (i : Nat) vars, env.defs[i]? = some (.enum vars) → ∀ v ∈ vars, v.shape ≠ .unit → v.name ≠ ['N', 'o', 'n', 'e'])
    (hEx : Extends env env') (hk' : LawfulKeys env') (hEv : REvolution env env' R)
    {i j : Nat} {fs₁ fs₂ gs : List Field} {f : Field} {cd cd' nul nul' : Bool}
    (hi : env.defs[i]? = some (.struct (fs₁ ++ f :: fs₂) cd nul)) (hj : env'.defs[j]? = some (.struct gs cd' nul'))
    (hne : gs ≠ []) (hd : DistinctNames gs) (hrem : ∀ g ∈ gs, g.skip = false → g.jsonName ≠ f.jsonName)
    (hkept : ∀ f ∈ fs₁, f.skip = false → ∃ g ∈ gs, g.skip = false ∧ g.jsonName = f.jsonName ∧ RTyEvo env env' R f.ty g.ty)
    {vs₁ vs₂ : List Val} {v : Val} (hlen : vs₁.length = fs₁.length) (hf : f.skip = false) (hv : f.optSyn = true → v ≠ .none)
    (hT : HasTy env (.named i) (.struct (vs₁ ++ v :: vs₂))) (hX : RonExact env (.named i) (.struct (vs₁ ++ v :: vs₂)))
    {chk : Bool} {txt : List Char} (h : serializeRon env fl chk (.named i) (.struct (vs₁ ++ v :: vs₂)) = some txt) :
    RejectsWith (fun n => deserializeRon env' fl n (.named j) txt) (.unexpectedKey f.jsonName) := by
  unfold serializeRon at h
  split at h
  · cases h
  injection h with h
  subst h
  have hdo := hE i _ hi
  obtain ⟨o1, o2, o3⟩ := hdo
  simp only [HasTy, hi] at hT
  simp only [RonExact, Holds, hi] at hX
  have hT1 := fieldsTy_take hlen.symm hT
  have hX1 := holdsFields_take hlen.symm hX.2
  obtain ⟨qs, q1, q2, q3⟩ := rmig_fields (env' := env') (fl := fl) (R := R) fs₁ vs₁ hT1 hX1
    (fun f w hm hx => rmig hk hfl hE hN hEx hk' hEv w f.ty (fieldsTy_zip hT1 hm) hx)
    (fun g hg => o1 g (by simp [hg]))
  have od := List.pairwise_append.1 o2
  -- the members before `f`
  obtain ⟨ps, hps, hpr⟩ := exists_preimage (g := fun p : RMember => (p.1, p.2.1))
    (Q := fun p => (NotBool p.1 ∧ ∃ g ∈ gs, g.skip = false ∧ g.jsonName = p.1) ∧
      ∀ g ∈ gs, g.skip = false → g.jsonName = p.1 → RonMeans env' fl g.ty p.2.1 p.2.2) qs (by
      intro q hq
      obtain ⟨f, v, h1, h2, h3, h4⟩ := q3.source q hq
      have hfm := (List.of_mem_zip h1).1
      obtain ⟨g, g1, g2, g3, g4⟩ := hkept f hfm h2.1
      obtain ⟨w, w1, w2⟩ := h4.2.2 _ g4
      refine ⟨(q.1, q.2, w), rfl, ⟨?_, g, g1, g2, by rw [g3, ← h3]⟩, ?_⟩
      · show NotBool q.1
        rw [h3]
        exact (o1 f (by simp [hfm]) h2.1).2
      · intro g' hg' s' e'
        obtain rfl := distinct_eq hd hg' g1 s' g2 (by rw [e', g3, ← h3])
        exact w1)
  have hfn := o1 f (by simp) hf
  have e : serRon env fl (.named i) (.struct (vs₁ ++ v :: vs₂)) = '(' :: (commaEach (serRonFields env fl true fs₁ vs₁) ++
      (f.jsonName ++ (':' :: (serRon env fl f.ty v ++ ',' :: (commaEach (serRonFields env fl true fs₂ vs₂) ++ [')']))))) := by
    rw [serRon, hi]
    simp only
    rw [serRonFields_append hlen.symm, serRonFields, if_neg (by simp [hf]), if_neg (by
      rintro ⟨a, b⟩
      exact hv a (by cases v <;> simp [Val.isNone] at b ⊢))]
    simp [commaEach, ronMember, Field.key, Field.jsonName]
  refine C42_ron_unknown_field hk' hj hne hd hfn.2 hrem ps (fun p hp => (hpr p hp).1) (fun p hp => (hpr p hp).2)
    (tail := ':' :: (serRon env fl f.ty v ++ ',' :: (commaEach (serRonFields env fl true fs₂ vs₂) ++ [')']))) ?_
  rw [e]
  have h1 : RDoc fl [.word f.jsonName] (f.jsonName ++ (':' :: (serRon env fl f.ty v ++ ',' :: (commaEach (serRonFields env fl true fs₂ vs₂) ++ [')'])))) _ :=
    RLSpells.single (.word hfn.1) [] _ _ (RSepText.cons (by simp)) .nil
  have h2 := rdoc_members (by rw [q1]) q2 h1
  have h3 := RDoc.cons (w := []) (s := ['(']) .nil (.parenOpen) trivial h2
  rw [← hps] at h3
  simpa [memberLexemes, List.flatMap_map] using h3

/-! A new version of `Conf`: `name` is called `title` in the source (and still `n` in RON), `retries` is a `u32`, `level`
is an `Option<[u64; 1]>` (`Meters` is a tuple struct with one field), `ratio` comes first and is an `Option`, there is a new
field. -/

/-- The new `Conf` (definition 5). -/
def exConf3 : Def := .struct
  [ { name := chars "ratio", ty := .option .f64, optSyn := true, tyDefault := .none },
    { name := chars "title", ty := .str, rename := some (chars "n"), tyDefault := .str [] },
    { name := chars "level", ty := .option (.array (.int .u64) 1), optSyn := true, tyDefault := .none },
    { name := chars "retries", ty := .int .u32, tyDefault := .int 0 },
    { name := chars "verbose", ty := .bool, dfltAttr := some (.bool true), tyDefault := .bool false } ]
  false false

/-- `Conf` without `retries` (definition 6). -/
def exConf4 : Def := .struct
  [ { name := chars "name", ty := .str, rename := some (chars "n"), tyDefault := .str [] },
    { name := chars "ratio", ty := .f64, tyDefault := .f64 0 } ]
  false false

/-- The new program. -/
noncomputable def exJEnv3 : Env :=
  lawEnv [exNode, exEnum, exMeters, exConf, exEmpty, exConf3, exConf4]
    [{ ty := .int .u8, into := fun v => match v with | .struct [x] => x | x => x,
       back := fun v => .struct [v] }]

@[simp] theorem exJEnv3_defs : exJEnv3.defs = [exNode, exEnum, exMeters, exConf, exEmpty, exConf3, exConf4] := rfl

theorem exJEnv3_extends : Extends exJEnv exJEnv3 := by
  refine ⟨fun i d h => ?_, fun i px h => h, rfl⟩
  simp only [exJEnv_defs] at h
  match i with
  | 0 | 1 | 2 | 3 | 4 => simpa using h
  | n + 5 => simp at h

theorem exREvolution : REvolution exJEnv exJEnv3 exReplaced := by
  rintro i j ⟨rfl, rfl⟩
  refine ⟨exConf, exConf3, by simp, by simp, .struct ⟨by simp [DistinctNames, Field.jsonName, chars], ?_, ?_⟩⟩
  · refine List.forall_mem_cons.2 ⟨fun _ => ?_, List.forall_mem_cons.2 ⟨fun _ => ?_, List.forall_mem_cons.2 ⟨fun _ => ?_,
      List.forall_mem_cons.2 ⟨fun h => (by cases h), List.forall_mem_cons.2 ⟨fun _ => ?_, by simp⟩⟩⟩⟩⟩
    · exact ⟨_, List.mem_cons_of_mem _ (List.mem_cons_self ..), rfl, rfl, .same⟩
    · exact ⟨_, List.mem_cons_of_mem _ (List.mem_cons_of_mem _ (List.mem_cons_of_mem _ (List.mem_cons_self ..))), rfl, rfl,
        .widen rfl rfl fun i h => by
          simp [IntKind.inRange, IntKind.lo, IntKind.hi, IntKind.signed, IntKind.bytes] at h ⊢; omega⟩
    · refine ⟨_, List.mem_cons_of_mem _ (List.mem_cons_of_mem _ (List.mem_cons_self ..)), rfl, rfl, .option
        (.parens [(.int .u32, .int .u64)] (.tuple (show exJEnv.defs[2]? = some exMeters from rfl)) .array
          (List.forall_mem_cons.2 ⟨.widen rfl rfl fun i h => ?_, by simp⟩))⟩
      simp [IntKind.inRange, IntKind.lo, IntKind.hi, IntKind.signed, IntKind.bytes] at h ⊢; omega
    · exact ⟨_, List.mem_cons_self .., rfl, rfl, .optional .same⟩
  · intro g hg
    simp only [List.mem_cons, List.not_mem_nil, or_false] at hg
    rcases hg with rfl | rfl | rfl | rfl | rfl
    · exact .inl (.inr (.inl rfl))
    · exact .inr ⟨_, List.mem_cons_self .., rfl, rfl, rfl⟩
    · exact .inl (.inr (.inl rfl))
    · exact .inr ⟨_, List.mem_cons_of_mem _ (List.mem_cons_self ..), rfl, rfl, rfl⟩
    · exact .inl (.inr (.inr (.inr rfl)))

theorem exJEnv_noNoneData (i : Nat) (vars : List Variant) (h : exJEnv.defs[i]? = some (.enum vars)) :
    ∀ v ∈ vars, v.shape ≠ .unit → v.name ≠ ['N', 'o', 'n', 'e'] :=
  fun v hv _ => exJEnv_noNone i vars h v hv

/-- An old `Conf` is read as a new one. -/
example : ∃ w, RMigrates exJEnv exJEnv3 (.named 3) (.option (.box (.named 5))) exConfVal w ∧
    Decodes (fun n => deserializeRon exJEnv3 toyFloat n (.option (.box (.named 5))) (serRon exJEnv toyFloat (.named 3) exConfVal)) w :=
  C90_ron_evolution (v := exConfVal) exJEnv_lawful toyFloat_laws exJEnv_ron exJEnv_noNoneData exJEnv3_extends (lawEnv_lawful _ _)
    exREvolution (.optional (.boxed (.named ⟨rfl, rfl⟩)))
    (by simp [SkipEq, exConfVal, exConf, SkipEqFields, SkipEqTys, exMeters]) exConfVal_typed exConfVal_ronExact (chk := false) rfl

/-- What becomes of it. -/
example : Decodes (fun n => deserializeRon exJEnv3 toyFloat n (.named 5) (serRon exJEnv toyFloat (.named 3) exConfVal))
    (.struct [.some (.f64 5), .str ['a', '"', 'b'], .some (.seq [.int 12]), .int 7, .bool true]) :=
  ron_ok 40 _ (by decide +kernel)

/-- Without `retries` it is rejected. -/
example : RejectsWith (fun n => deserializeRon exJEnv3 toyFloat n (.named 6) (serRon exJEnv toyFloat (.named 3) exConfVal))
    (.unexpectedKey (chars "retries")) := by
  refine C90_ron_removed_field (R := exReplaced) exJEnv_lawful toyFloat_laws exJEnv_ron exJEnv_noNoneData exJEnv3_extends (lawEnv_lawful _ _)
    exREvolution (i := 3) (j := 6)
    (fs₁ := [{ name := chars "name", ty := .str, rename := some (chars "n"), tyDefault := .str [] }])
    (f := { name := chars "retries", ty := .int .u8, dfltAttr := some (.int 3), tyDefault := .int 0 })
    (fs₂ := [{ name := chars "level", ty := .option (.named 2), optSyn := true, tyDefault := .none },
      { name := chars "cache", ty := .int .u64, skip := true, tyDefault := .int 0 },
      { name := chars "ratio", ty := .f64, tyDefault := .f64 0 }]) (cd := false) (nul := false)
    (gs := [{ name := chars "name", ty := .str, rename := some (chars "n"), tyDefault := .str [] },
      { name := chars "ratio", ty := .f64, tyDefault := .f64 0 }]) (cd' := false) (nul' := false) rfl rfl (by simp)
    (by simp [DistinctNames, Field.jsonName, chars]) (by simp [Field.jsonName, chars])
    (List.forall_mem_cons.2 ⟨fun _ => ⟨_, List.mem_cons_self .., rfl, rfl, .same⟩, by simp⟩)
    (vs₁ := [.str ['a', '"', 'b']]) (v := .int 7) (vs₂ := [.some (.struct [.int 12]), .int 0, .f64 5]) rfl rfl (fun h => by cases h)
    exConfVal_typed exConfVal_ronExact (chk := false) rfl

end NS
