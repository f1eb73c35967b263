import Verif.Spec.BinLayout
/-! Where reading bytes can panic (specification for C05). -/
namespace NS

/-- `u` is a component of the type `t`: its content or element type, the type of a field. -/
def Component (env : Env) : Ty → Ty → Prop
  | .option t, u | .vec t, u | .linked t, u | .hset t, u | .bset t, u | .array t _, u | .box t, u => u = t
  | .pair a b, u | .hmap a b, u | .bmap a b, u => u = a ∨ u = b
  | .triple a b c, u => u = a ∨ u = b ∨ u = c
  | .quad a b c d, u => u = a ∨ u = b ∨ u = c ∨ u = d
  | .named i, u => ∃ df, env.defs[i]? = some df ∧ u ∈ df.types
  | .proxied i, u => ∃ px, env.proxies[i]? = some px ∧ u = px.ty
  | _, _ => False

/-- `u` is `t`, a component of it, a component of a component, ... -/
inductive Occurs (env : Env) : Ty → Ty → Prop
  | refl (t : Ty) : Occurs env t t
  | step {t u w : Ty} : Component env t u → Occurs env u w → Occurs env t w

theorem Occurs.trans {env : Env} {t u w : Ty} (h : Occurs env t u) (h' : Occurs env u w) : Occurs env t w := by
  induction h with
  | refl => exact h'
  | step hc _ ih => exact .step hc (ih h')

/-- The 32-bit number at offset `o`. -/
def u32At (d : List Byte) (o : Nat) : Nat := littleEndian ((d.drop o).take 4)

/-- The bytes at offset `p` are such that reading a `u` there panics:
* a `String` whose end `p + 8 + len` overflows `usize`, if overflow checks are on or the wrapped end
  lies inside the input;
* a `Vec` with a length for which the allocation exceeds `isize::MAX` bytes, a `HashSet` or `HashMap`
  with a length for which `with_capacity` panics;
* a `Duration` of `u64::MAX` seconds and one billion nanoseconds;
* a `SystemTime` whose seconds, with the carry, do not fit `i64`. -/
def PanicsAt (env : Env) (chk : Bool) (d : List Byte) : Ty → Nat → Prop
  | .str, p => p + 8 ≤ d.length ∧ 2 ^ 64 ≤ p + 8 + lenAt d p ∧
      (chk = true ∨ p + 8 + lenAt d p - 2 ^ 64 ≤ d.length)
  | .vec t, p => p + 8 ≤ d.length ∧ isizeMax < lenAt d p * env.memSize t
  | .hset t, p => p + 8 ≤ d.length ∧ env.hashCapPanics (env.memSize t) (lenAt d p) = true
  | .hmap k v, p => p + 8 ≤ d.length ∧ env.hashCapPanics (env.memSize k + env.memSize v) (lenAt d p) = true
  | .dur, p => p + 12 ≤ d.length ∧ lenAt d p = 2 ^ 64 - 1 ∧ u32At d (p + 8) = 1000000000
  | .time, p => p + 13 ≤ d.length ∧ d[p]? = some 1 ∧ u32At d (p + 9) ≤ 1000000000 ∧
      2 ^ 63 ≤ lenAt d (p + 1) + u32At d (p + 9) / 1000000000
  | _, _ => False

end NS
