import Verif.Model.Base
/-!
# Equality up to skipped fields

`SkipEq env t v w`: the values `v` and `w` of type `t` differ at most in struct fields with the
`skip` attribute, at any depth.  With `inVariants` also such fields of enum struct variants may
differ.
-/
namespace NS

mutual
/-- See above. -/
def SkipEq (env : Env) (inVariants : Bool) : Ty → Val → Val → Prop
  | .option t, .some v, .some w => SkipEq env inVariants t v w
  | .vec t, .seq vs, .seq ws => SkipEqAll env inVariants t vs ws
  | .linked t, .seq vs, .seq ws => SkipEqAll env inVariants t vs ws
  | .hset t, .seq vs, .seq ws => SkipEqAll env inVariants t vs ws
  | .bset t, .seq vs, .seq ws => SkipEqAll env inVariants t vs ws
  | .array t _, .seq vs, .seq ws => SkipEqAll env inVariants t vs ws
  | .pair a b, .seq vs, .seq ws => SkipEqTys env inVariants [a, b] vs ws
  | .triple a b c, .seq vs, .seq ws => SkipEqTys env inVariants [a, b, c] vs ws
  | .quad a b c d, .seq vs, .seq ws => SkipEqTys env inVariants [a, b, c, d] vs ws
  | .hmap k t, .seq vs, .seq ws => SkipEqEntries env inVariants k t vs ws
  | .bmap k t, .seq vs, .seq ws => SkipEqEntries env inVariants k t vs ws
  | .box t, .box v, .box w => SkipEq env inVariants t v w
  | .named i, .struct vs, .struct ws =>
    match env.defs[i]? with
    | .some (.struct fs _ _) => SkipEqFields env inVariants true fs vs ws
    | .some (.tuple ts _) => SkipEqTys env inVariants ts vs ws
    | _ => False
  | .named i, .variant j vs, .variant j' ws =>
    j = j' ∧
    match env.defs[i]? with
    | .some (.enum vars) =>
      match vars[j]? with
      | .some ⟨_, _, .unit⟩ => vs = [] ∧ ws = []
      | .some ⟨_, _, .tuple ts⟩ => SkipEqTys env inVariants ts vs ws
      | .some ⟨_, _, .named fs⟩ => SkipEqFields env inVariants inVariants fs vs ws
      | .none => False
    | _ => False
  | .proxied i, .prox _ p, .prox _ q =>
    match env.proxies[i]? with
    | .some px => SkipEq env inVariants px.ty p q
    | .none => False
  | _, v, w => v = w
termination_by structural _ v => v
/-- Element by element. -/
def SkipEqAll (env : Env) (inVariants : Bool) (t : Ty) : List Val → List Val → Prop
  | [], [] => True
  | v :: vs, w :: ws => SkipEq env inVariants t v w ∧ SkipEqAll env inVariants t vs ws
  | _, _ => False
termination_by structural vs => vs
/-- Entry by entry. -/
def SkipEqEntries (env : Env) (inVariants : Bool) (k t : Ty) : List Val → List Val → Prop
  | [], [] => True
  | .entry a b :: vs, .entry a' b' :: ws =>
    SkipEq env inVariants k a a' ∧ SkipEq env inVariants t b b' ∧ SkipEqEntries env inVariants k t vs ws
  | _, _ => False
termination_by structural vs => vs
/-- Component by component. -/
def SkipEqTys (env : Env) (inVariants : Bool) : List Ty → List Val → List Val → Prop
  | [], [], [] => True
  | t :: ts, v :: vs, w :: ws => SkipEq env inVariants t v w ∧ SkipEqTys env inVariants ts vs ws
  | _, _, _ => False
termination_by structural _ vs => vs
/-- Field by field; a skipped field may differ arbitrarily (if `useSkip`). -/
def SkipEqFields (env : Env) (inVariants useSkip : Bool) : List Field → List Val → List Val → Prop
  | [], [], [] => True
  | f :: fs, v :: vs, w :: ws =>
    ((useSkip = true ∧ f.skip = true) ∨ SkipEq env inVariants f.ty v w) ∧
      SkipEqFields env inVariants useSkip fs vs ws
  | _, _, _ => False
termination_by structural _ vs => vs
end

end NS
