import Verif.Spec.Prog
/-! # Programs without zero-length arrays -/
namespace NS

/-- No `[T; 0]` occurs in the type. -/
def Ty.noEmptyArr : Ty → Bool
  | .array t n => n != 0 && t.noEmptyArr
  | .option t | .vec t | .linked t | .hset t | .bset t | .box t => t.noEmptyArr
  | .pair a b | .hmap a b | .bmap a b => a.noEmptyArr && b.noEmptyArr
  | .triple a b c => a.noEmptyArr && b.noEmptyArr && c.noEmptyArr
  | .quad a b c d => a.noEmptyArr && b.noEmptyArr && c.noEmptyArr && d.noEmptyArr
  | _ => true

/-- No `[T; 0]` occurs in a definition or proxy. -/
structure NoEmptyArrays (env : Env) : Prop where
  defs : ∀ d ∈ env.defs, ∀ t ∈ d.tys, t.noEmptyArr = true
  proxies : ∀ p ∈ env.proxies, p.ty.noEmptyArr = true

end NS
