import Verif.Model.Base
/-!
# Vocabulary for the property statements
-/
namespace NS

/-- The computation `f`, given enough fuel, has outcome `r` (it *returns* `r`, or panics, but in
any case stops). -/
def Returns {ε σ α : Type} (f : Nat → Out ε σ α) (r : Out ε σ α) : Prop :=
  ∃ n₀, ∀ n, n₀ ≤ n → f n = r

/-- The computation `f` never stops. -/
def Diverges {ε σ α : Type} (f : Nat → Out ε σ α) : Prop := ∀ n, f n = .oof

/-- The computation `f` stops with an `Err`. -/
def Fails {ε σ α : Type} (f : Nat → Out ε σ α) : Prop := ∃ e s, Returns f (.err e s)

mutual
/-- `P` holds of the value and of every component a serializer visits; a skipped struct field
holds `dflt f` (the value a deserializer gives it).  `skipInVariants` says whether the
`skip` attribute is honoured inside enum struct variants. -/
def Holds (env : Env) (P : Ty → Val → Prop) (dflt : Field → Val) (skipInVariants : Bool) :
    Ty → Val → Prop
  | .option t, .some v => P (.option t) (.some v) ∧ Holds env P dflt skipInVariants t v
  | .vec t, .seq vs => P (.vec t) (.seq vs) ∧ HoldsAll env P dflt skipInVariants t vs
  | .linked t, .seq vs => P (.linked t) (.seq vs) ∧ HoldsAll env P dflt skipInVariants t vs
  | .hset t, .seq vs => P (.hset t) (.seq vs) ∧ HoldsAll env P dflt skipInVariants t vs
  | .bset t, .seq vs => P (.bset t) (.seq vs) ∧ HoldsAll env P dflt skipInVariants t vs
  | .array t n, .seq vs => P (.array t n) (.seq vs) ∧ HoldsAll env P dflt skipInVariants t vs
  | .pair a b, .seq vs => P (.pair a b) (.seq vs) ∧ HoldsTys env P dflt skipInVariants [a, b] vs
  | .triple a b c, .seq vs => P (.triple a b c) (.seq vs) ∧
      HoldsTys env P dflt skipInVariants [a, b, c] vs
  | .quad a b c d, .seq vs => P (.quad a b c d) (.seq vs) ∧
      HoldsTys env P dflt skipInVariants [a, b, c, d] vs
  | .hmap k t, .seq vs => P (.hmap k t) (.seq vs) ∧ HoldsEntries env P dflt skipInVariants k t vs
  | .bmap k t, .seq vs => P (.bmap k t) (.seq vs) ∧ HoldsEntries env P dflt skipInVariants k t vs
  | .box t, .box v => P (.box t) (.box v) ∧ Holds env P dflt skipInVariants t v
  | .named i, .struct vs => P (.named i) (.struct vs) ∧
      match env.defs[i]? with
      | .some (.struct fs _ _) => HoldsFields env P dflt skipInVariants true fs vs
      | .some (.tuple ts _) => HoldsTys env P dflt skipInVariants ts vs
      | _ => True
  | .named i, .variant j vs => P (.named i) (.variant j vs) ∧
      match env.defs[i]? with
      | .some (.enum vars) =>
        match vars[j]? with
        | .some ⟨_, _, .tuple ts⟩ => HoldsTys env P dflt skipInVariants ts vs
        | .some ⟨_, _, .named fs⟩ => HoldsFields env P dflt skipInVariants skipInVariants fs vs
        | _ => True
      | _ => True
  | .proxied i, .prox o p => P (.proxied i) (.prox o p) ∧
      match env.proxies[i]? with
      | .some px => Holds env P dflt skipInVariants px.ty p
      | _ => True
  | t, v => P t v
/-- `Holds` of every item. -/
def HoldsAll (env : Env) (P : Ty → Val → Prop) (dflt : Field → Val) (skipInVariants : Bool)
    (t : Ty) : List Val → Prop
  | [] => True
  | v :: vs => Holds env P dflt skipInVariants t v ∧ HoldsAll env P dflt skipInVariants t vs
/-- `Holds` of every key and value. -/
def HoldsEntries (env : Env) (P : Ty → Val → Prop) (dflt : Field → Val) (skipInVariants : Bool)
    (k t : Ty) : List Val → Prop
  | [] => True
  | .entry a b :: vs => Holds env P dflt skipInVariants k a ∧ Holds env P dflt skipInVariants t b ∧
      HoldsEntries env P dflt skipInVariants k t vs
  | _ :: _ => True
/-- `Holds` of every tuple component. -/
def HoldsTys (env : Env) (P : Ty → Val → Prop) (dflt : Field → Val) (skipInVariants : Bool) :
    List Ty → List Val → Prop
  | t :: ts, v :: vs => Holds env P dflt skipInVariants t v ∧
      HoldsTys env P dflt skipInVariants ts vs
  | _, _ => True
/-- `Holds` of every field that is written; skipped ones hold their default. -/
def HoldsFields (env : Env) (P : Ty → Val → Prop) (dflt : Field → Val) (skipInVariants : Bool)
    (useSkip : Bool) : List Field → List Val → Prop
  | f :: fs, v :: vs =>
      (if useSkip ∧ f.skip then v = dflt f else Holds env P dflt skipInVariants f.ty v) ∧
      HoldsFields env P dflt skipInVariants useSkip fs vs
  | _, _ => True
end

/-- Value of the last entry with key `k`. -/
noncomputable def lastVal (k : Val) : List Val → Option Val
  | [] => none
  | .entry k' v :: es => match lastVal k es with
    | some w => some w
    | none => open Classical in if k' = k then some v else none
  | _ :: es => lastVal k es

/-- Value stored under key `k` (first entry with that key; maps have at most one). -/
noncomputable def mapGet (k : Val) : List Val → Option Val
  | [] => none
  | .entry k' v :: es => open Classical in if k' = k then some v else mapGet k es
  | _ :: es => mapGet k es

/-- Every enum has at most 2^16 variants (otherwise the derived code, which contains literals
like `65536u16`, does not compile). -/
def EnumsSmall (env : Env) : Prop :=
  ∀ (i : Nat) (vars : List Variant), env.defs[i]? = some (Def.enum vars) → vars.length ≤ 65536

end NS

namespace NS

/-- The text reader `f` (a function of the fuel) returns `Ok(v)`. -/
def Decodes {ε σ : Type} (f : Nat → Out ε σ Val) (v : Val) : Prop :=
  ∃ n₀, ∀ n, n₀ ≤ n → ∃ s, f n = .ok v s

/-- The text reader `f` returns an `Err`. -/
def Rejects {ε σ : Type} (f : Nat → Out ε σ Val) : Prop :=
  ∃ n₀, ∀ n, n₀ ≤ n → ∃ e s, f n = .err e s

/-- The text reader `f` panics. -/
def Panics {ε σ : Type} (f : Nat → Out ε σ Val) : Prop :=
  ∃ n₀, ∀ n, n₀ ≤ n → f n = .panic

/-- The text reader `f` never returns (an infinite loop). -/
def Hangs {ε σ : Type} (f : Nat → Out ε σ Val) : Prop := ∀ n, f n = .oof

end NS
