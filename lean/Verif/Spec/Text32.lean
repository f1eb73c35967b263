import Verif.Model.Text32
import Verif.Spec.Text
/-!
# Text formats on a 32-bit target (specification for C100)

The same program with `u32` in every place of `usize`; its values are the values a 32-bit target has.
-/
namespace NS

/-- The type with `u32` for `usize`. -/
def Ty.narrow : Ty → Ty
  | .int .usize => .int .u32
  | .option t => .option t.narrow
  | .vec t => .vec t.narrow
  | .linked t => .linked t.narrow
  | .hset t => .hset t.narrow
  | .bset t => .bset t.narrow
  | .array t n => .array t.narrow n
  | .pair a b => .pair a.narrow b.narrow
  | .triple a b c => .triple a.narrow b.narrow c.narrow
  | .quad a b c d => .quad a.narrow b.narrow c.narrow d.narrow
  | .hmap k v => .hmap k.narrow v.narrow
  | .bmap k v => .bmap k.narrow v.narrow
  | .box t => .box t.narrow
  | t => t

/-- The field with `u32` for `usize`. -/
def Field.narrow (f : Field) : Field := { f with ty := f.ty.narrow }

/-- The variant with `u32` for `usize`. -/
def Variant.narrow (v : Variant) : Variant :=
  { v with shape := match v.shape with
      | .unit => .unit
      | .tuple ts => .tuple (ts.map Ty.narrow)
      | .named fs => .named (fs.map Field.narrow) }

/-- The definition with `u32` for `usize`. -/
def Def.narrow : Def → Def
  | .struct fs cd nul => .struct (fs.map Field.narrow) cd nul
  | .tuple ts tr => .tuple (ts.map Ty.narrow) tr
  | .enum vs => .enum (vs.map Variant.narrow)

/-- The program with `u32` for `usize`. -/
def Env.narrow (env : Env) : Env :=
  { env with defs := env.defs.map Def.narrow, proxies := env.proxies.map fun p => { p with ty := p.ty.narrow } }

/-- An outcome without the value: whether reading succeeds, and where it stands or with what error. -/
def Out.bare {ε σ α : Type} : Out ε σ α → Out ε σ Unit
  | .ok _ s => .ok () s
  | .err e s => .err e s
  | .panic => .panic
  | .oof => .oof

end NS
