import Verif.Spec.Reread
import Verif.Spec.Bin
/-!
# Values read from a text and stored as binary

Conditions on the parts of a program that text readers take over unseen (defaults, and conversions of
proxies), now with the binary format in view.
-/
namespace NS

/-- In addition to `SaneText`: a skipped field of a struct gets the same default from a text reader
(`#[nserde(default …)]` or `Default::default()`) as from the binary reader (always `Default::default()`); the
binary format represents the defaults; converting from a proxy and back does not leave the values that it
represents. -/
structure BinSaneText (env : Env) : Prop extends SaneText env where
  skipped : ∀ (i : Nat) fs cd nul, env.defs[i]? = some (.struct fs cd nul) → ∀ f ∈ fs, f.skip = true →
    f.absentValue = f.tyDefault
  absentExact : ∀ cd f, FieldOf env cd f → f.mayBeAbsent cd → BinExact env f.ty f.absentValue
  proxiesExact : ∀ (i : Nat) px p, env.proxies[i]? = some px → HasTy env.unlimited px.ty p →
    BinExact env px.ty p → BinExact env px.ty (px.into (px.back p))

end NS
