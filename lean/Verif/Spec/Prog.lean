import Verif.Model.Lex
/-!
# Programs whose text readers are well defined

`ProgWf`: every type mentioned exists and, if it is an integer type, has text impls (all others are
rejected by rustc).  `Productive`: following `Option`, `Box`, transparent structs and proxies (whose
readers consume nothing themselves) never leads in a circle; a circle such as
`#[nserde(transparent)] struct T(Option<Box<T>>)` overflows the stack on any input but `null`.
-/
namespace NS

/-- All mentioned types exist. -/
def TyWf (env : Env) : Ty → Prop
  | .int k => k.textual = true
  | .option t | .vec t | .linked t | .hset t | .bset t | .array t _ | .box t => TyWf env t
  | .pair a b | .hmap a b | .bmap a b => TyWf env a ∧ TyWf env b
  | .triple a b c => TyWf env a ∧ TyWf env b ∧ TyWf env c
  | .quad a b c d => TyWf env a ∧ TyWf env b ∧ TyWf env c ∧ TyWf env d
  | .named i => i < env.defs.length
  | .proxied i => i < env.proxies.length
  | _ => True

/-- The types of the components of a definition. -/
def Def.tys : Def → List Ty
  | .struct fs _ _ => fs.map (·.ty)
  | .tuple ts _ => ts
  | .enum vars => vars.flatMap fun v =>
    match v.shape with
    | .unit => []
    | .tuple ts => ts
    | .named fs => fs.map (·.ty)

/-- All definitions are well formed. -/
structure ProgWf (env : Env) : Prop where
  defs : ∀ d ∈ env.defs, ∀ t ∈ d.tys, TyWf env t
  proxies : ∀ p ∈ env.proxies, TyWf env p.ty

/-- No circle of types without text of their own. -/
def Productive (env : Env) : Prop :=
  ∃ rank : Ty → Nat, (∀ t, rank t < rank (.option t)) ∧ (∀ t, rank t < rank (.box t)) ∧
    (∀ (i : Nat) t, env.defs[i]? = some (.tuple [t] true) → rank t < rank (.named i)) ∧
    (∀ (i : Nat) px, env.proxies[i]? = some px → rank px.ty < rank (.proxied i))

end NS
