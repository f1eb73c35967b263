import Verif.Spec.JsonObject
/-!
# How much a value holds (specification for C92)
-/
namespace NS

mutual
/-- How much data a value holds: every number, boolean, time and enum tag counts one, a string counts its
characters, a `None` counts one; structs, tuples, boxes, `Some` and `()` are just the sum of their parts.  With
`el = 1`, `()` also counts one and a sequence (a collection, an array or a tuple) counts, besides what its elements
hold, one for itself and one for each element.  Of a value behind a proxy the value itself is counted. -/
def Val.weight (el : Nat) : Val → Nat
  | .unit => el
  | .bool _ | .int _ | .f32 _ | .f64 _ | .dur _ _ | .time _ _ | .none => 1
  | .str s => s.length
  | .some v | .box v => v.weight el
  | .seq vs => el * (vs.length + 1) + weightAll el vs
  | .entry k v => k.weight el + v.weight el
  | .struct vs => weightAll el vs
  | .variant _ vs => 1 + weightAll el vs
  | .prox o _ => o.weight el
/-- The sum over a list. -/
def weightAll (el : Nat) : List Val → Nat
  | [] => 0
  | v :: vs => v.weight el + weightAll el vs
end

/-- The fields of the structs and struct variants of a program. -/
def NamedFields (env : Env) (fs : List Field) : Prop :=
  (∃ (i : Nat) (cd nul : Bool), env.defs[i]? = some (.struct fs cd nul)) ∨
  ∃ (i : Nat) (vars : List Variant), env.defs[i]? = some (.enum vars) ∧ ∃ v ∈ vars, v.shape = .named fs

/-- The user's part of the program adds little: the values supplied for absent fields hold at most `D` per struct,
and a conversion from a proxy does not add data. -/
structure Modest (env : Env) (el D : Nat) : Prop where
  absent : ∀ fs, NamedFields env fs → weightAll el (fs.map Field.absentValue) ≤ D
  proxy : ∀ px ∈ env.proxies, ∀ p : Val, (px.back p).weight el ≤ p.weight el

/-- For the binary format: skipped fields are filled with values that hold nothing, and a conversion from a proxy
does not add data. -/
structure BinModest (env : Env) : Prop where
  skipped : ∀ (i : Nat) (fs : List Field) (cd nul : Bool), env.defs[i]? = some (.struct fs cd nul) →
    ∀ f ∈ fs, f.skip = true → f.tyDefault.weight 0 = 0
  proxy : ∀ px ∈ env.proxies, ∀ p : Val, (px.back p).weight 0 ≤ p.weight 0


end NS
