import Verif.Spec.JsonDoc
import Verif.Spec.JsonMeans
/-!
# Members a JSON reader does not know

`Trips env t J`: while reading the JSON value `J` as a `t`, the reader meets an object member whose key is not the name of a
field (the only place where nanoserde's JSON readers can panic or hang on a text that breaks off), or a `Duration` or
`SystemTime` outside the range of the type (where the constructors of `std::time` panic).
-/
namespace NS

/-- The components of a tuple type. -/
def Ty.components : Ty → List Ty
  | .pair a b => [a, b]
  | .triple a b c => [a, b, c]
  | .quad a b c d => [a, b, c, d]
  | _ => []

/-- To read `J` as a `t`, the object with the members `ms` is read into the fields `fs`: `t` is a struct, or an enum and `J`
begins with the name of a struct variant. -/
inductive ObjectOf (env : Env) : Ty → JTree → List Field → List (JTree × JTree) → Prop where
  | struct {i : Nat} {fs : List Field} {cd nul tr : Bool} {ms} : env.defs[i]? = some (.struct fs cd nul) →
      ObjectOf env (.named i) (.obj ms tr) fs ms
  | variant {i : Nat} {vars : List Variant} {v : Variant} {fs : List Field} {tr tr' : Bool} {ms rest} :
      env.defs[i]? = some (.enum vars) → v ∈ vars → v.shape = .named fs →
      ObjectOf env (.named i) (.obj ((.str v.jsonName, .obj ms tr) :: rest) tr') fs ms

/-- To read `J` as a `t`, the part `x` of `J` is read as a `u`. -/
inductive ReadsPart (env : Env) : Ty → JTree → Ty → JTree → Prop where
  | some {t J} : ReadsPart env (.option t) J t J
  | box {t J} : ReadsPart env (.box t) J t J
  | proxied {i : Nat} {px : Proxy} {J} : env.proxies[i]? = some px → ReadsPart env (.proxied i) J px.ty J
  | transparent {i : Nat} {t J} : env.defs[i]? = some (.tuple [t] true) → ReadsPart env (.named i) J t J
  | item {t u : Ty} {xs : List JTree} {tr : Bool} {x : JTree} : t = .vec u ∨ t = .linked u ∨ t = .hset u ∨ t = .bset u →
      x ∈ xs → ReadsPart env t (.arr xs tr) u x
  | array {u : Ty} {n : Nat} {xs : List JTree} {tr : Bool} {x : JTree} : x ∈ xs → ReadsPart env (.array u n) (.arr xs tr) u x
  | component {t : Ty} {xs : List JTree} {tr : Bool} {p : Ty × JTree} : p ∈ t.components.zip xs →
      ReadsPart env t (.arr xs tr) p.1 p.2
  | tuple {i : Nat} {ts : List Ty} {b : Bool} {xs : List JTree} {tr : Bool} {p : Ty × JTree} :
      env.defs[i]? = some (.tuple ts b) → (ts.length = 1 → b = false) → p ∈ ts.zip xs → ReadsPart env (.named i) (.arr xs tr) p.1 p.2
  | key {t k u : Ty} {ms : List (JTree × JTree)} {tr : Bool} {m : JTree × JTree} : t = .hmap k u ∨ t = .bmap k u → m ∈ ms →
      ReadsPart env t (.obj ms tr) k m.1
  | value {t k u : Ty} {ms : List (JTree × JTree)} {tr : Bool} {m : JTree × JTree} : t = .hmap k u ∨ t = .bmap k u → m ∈ ms →
      ReadsPart env t (.obj ms tr) u m.2
  | field {t : Ty} {J : JTree} {fs : List Field} {ms : List (JTree × JTree)} {f : Field} {x : JTree} : ObjectOf env t J fs ms →
      f ∈ fs → f.skip = false → (.str f.jsonName, x) ∈ ms → ReadsPart env t J f.ty x
  | variant {i : Nat} {vars : List Variant} {v : Variant} {ts : List Ty} {xs : List JTree} {tr tr' : Bool} {rest}
      {p : Ty × JTree} : env.defs[i]? = some (.enum vars) → v ∈ vars → v.shape = .tuple ts → p ∈ ts.zip xs →
      ReadsPart env (.named i) (.obj ((.str v.jsonName, .arr xs tr) :: rest) tr') p.1 p.2

/-- The members of a `Duration` may add up to `bound` seconds or more (`10^9` nanoseconds are one more second). -/
def LateBy (bound : Nat) (J : JTree) : Prop :=
  ∃ v, Lexeme.num (.nat v) ∈ J.lexemes ∧ (bound ≤ v ∨ bound ≤ v + 1 ∧ Lexeme.num (.nat 1000000000) ∈ J.lexemes)

/-- The reader of `t` meets in `J` a member with an unknown key, or a time out of range. -/
inductive Trips (env : Env) : Ty → JTree → Prop where
  | unknown {t : Ty} {J : JTree} {fs : List Field} {ms : List (JTree × JTree)} {k : List Char} {x : JTree} :
      ObjectOf env t J fs ms → fs ≠ [] → (.str k, x) ∈ ms → (∀ f ∈ fs, f.skip = false → f.jsonName ≠ k) → Trips env t J
  | dur {J} : LateBy (2 ^ 64) J → Trips env .dur J
  | time {J} : LateBy (2 ^ 63) J → Trips env .time J
  | part {t : Ty} {J : JTree} {u : Ty} {x : JTree} : ReadsPart env t J u x → Trips env u x → Trips env t J

end NS
