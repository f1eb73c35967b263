import Verif.Spec.Evolve
import Verif.Spec.RonSafe
/-!
# Changing a program while keeping its RON

As `Verif/Spec/Evolve.lean` does for JSON: `RTyEvo`, `RDefEvo`, `REvolution` list the changes that are meant, `RMigrates`
says which value of the new program corresponds to a value of the old one.  RON readers reject members they do not know,
so a field that is written may not be removed; everything written between parentheses (tuples, arrays, tuple structs)
may replace each other.
-/
namespace NS

/-- `Parens env t ts c`: values of the type `t` are written `( … )`, with components of the types `ts`; `c` makes the
value of the components. -/
inductive Parens (env : Env) : Ty → List Ty → (List Val → Val) → Prop where
  | unit : Parens env .unit [] (fun _ => .unit)
  | pair {a b} : Parens env (.pair a b) [a, b] .seq
  | triple {a b c} : Parens env (.triple a b c) [a, b, c] .seq
  | quad {a b c d} : Parens env (.quad a b c d) [a, b, c, d] .seq
  | array {t n} : Parens env (.array t n) (List.replicate n t) .seq
  | tuple {i : Nat} {ts : List Ty} {tr : Bool} : env.defs[i]? = some (.tuple ts tr) → Parens env (.named i) ts .struct

/-- Types written in RON as a list `[ … ]` of items of type `a`. -/
inductive RonList : Ty → Ty → Prop where
  | vec {a} : RonList (.vec a) a
  | linked {a} : RonList (.linked a) a
  | hset {a} : RonList (.hset a) a
  | bset {a} : RonList (.bset a) a

/-- Types by which a type may be replaced. -/
inductive RTyEvo (env env' : Env) (R : Nat → Nat → Prop) : Ty → Ty → Prop where
  | same {t} : RTyEvo env env' R t t
  | named {i j} : R i j → RTyEvo env env' R (.named i) (.named j)
  /-- a wider integer type -/
  | widen {k l} : k.textual = true → l.textual = true → (∀ i, k.inRange i → l.inRange i) →
      RTyEvo env env' R (.int k) (.int l)
  /-- `T` becomes `Option<T>` -/
  | optional {t u} : RTyEvo env env' R t u → RTyEvo env env' R t (.option u)
  /-- `T` becomes `Box<T>`, or the other way round -/
  | boxed {t u} : RTyEvo env env' R t u → RTyEvo env env' R t (.box u)
  | unboxed {t u} : RTyEvo env env' R t u → RTyEvo env env' R (.box t) u
  /-- a set or a list becomes a `Vec` or a `LinkedList` -/
  | list {t u a b} : RonList t a → ListOf u b → RTyEvo env env' R a b → RTyEvo env env' R t u
  | option {t u} : RTyEvo env env' R t u → RTyEvo env env' R (.option t) (.option u)
  /-- tuples, arrays and tuple structs with as many components -/
  | parens {t u c c'} (ps : List (Ty × Ty)) : Parens env t (ps.map (·.1)) c → Parens env' u (ps.map (·.2)) c' →
      (∀ p ∈ ps, RTyEvo env env' R p.1 p.2) → RTyEvo env env' R t u
  /-- the values of a map (not its keys) -/
  | hmap {k t u} : RTyEvo env env' R t u → RTyEvo env env' R (.hmap k t) (.hmap k u)
  | bmap {k t u} : RTyEvo env env' R t u → RTyEvo env env' R (.bmap k t) (.bmap k u)

/-- Fields may be added if they may be absent (`Option`, `default`, `skip`), reordered, renamed in the source (keeping
the RON name by `rename`) and have their types replaced.  No field that is written may be removed. -/
structure RFieldsEvo (env env' : Env) (R : Nat → Nat → Prop) (cd : Bool) (fs gs : List Field) : Prop where
  distinct : DistinctNames gs
  kept : ∀ f ∈ fs, f.skip = false → ∃ g ∈ gs, g.skip = false ∧ g.jsonName = f.jsonName ∧ RTyEvo env env' R f.ty g.ty
  added : ∀ g ∈ gs, g.mayBeAbsent cd ∨ ∃ f ∈ fs, f.skip = false ∧ f.jsonName = g.jsonName ∧ f.optSyn = false

/-- Replacing the shape of a variant. -/
inductive RShapeEvo (env env' : Env) (R : Nat → Nat → Prop) : Shape → Shape → Prop where
  | unit : RShapeEvo env env' R .unit .unit
  | tuple (ps : List (Ty × Ty)) : (∀ p ∈ ps, RTyEvo env env' R p.1 p.2) →
      RShapeEvo env env' R (.tuple (ps.map (·.1))) (.tuple (ps.map (·.2)))
  | named {fs gs} : RFieldsEvo env env' R false fs gs → RShapeEvo env env' R (.named fs) (.named gs)

/-- Replacing a definition.  Enum variants may be added and reordered; every old variant has a successor of the same
name. -/
inductive RDefEvo (env env' : Env) (R : Nat → Nat → Prop) : Def → Def → Prop where
  | struct {fs gs cd cd' nul nul'} : RFieldsEvo env env' R cd' fs gs →
      RDefEvo env env' R (.struct fs cd nul) (.struct gs cd' nul')
  | tuple {tr tr'} (ps : List (Ty × Ty)) : (∀ p ∈ ps, RTyEvo env env' R p.1 p.2) →
      RDefEvo env env' R (.tuple (ps.map (·.1)) tr) (.tuple (ps.map (·.2)) tr')
  | enum {vars vars'} : vars'.Pairwise (fun v w => v.name ≠ w.name) →
      (∀ var ∈ vars, ∃ var' ∈ vars', var'.name = var.name ∧ RShapeEvo env env' R var.shape var'.shape) →
      RDefEvo env env' R (.enum vars) (.enum vars')

/-- Every replaced type is replaced by one that may replace it. -/
def REvolution (env env' : Env) (R : Nat → Nat → Prop) : Prop :=
  ∀ i j, R i j → ∃ d e, env.defs[i]? = some d ∧ env'.defs[j]? = some e ∧ RDefEvo env env' R d e

/-- `RMigrates env env' t u v w`: the value `w` of the new type `u` corresponds to the value `v` of the old type `t`. -/
inductive RMigrates (env env' : Env) : Ty → Ty → Val → Val → Prop where
  | same {t v} : RMigrates env env' t t v v
  | widen {k l} {i : Int} : RMigrates env env' (.int k) (.int l) (.int i) (.int i)
  /-- What RON writes as `None` becomes `None`, anything else `Some`. -/
  | nothing {t u v} : NoneForm env t v → RMigrates env env' t (.option u) v .none
  | something {t u v w} : ¬ NoneForm env t v → RMigrates env env' t u v w → RMigrates env env' t (.option u) v (.some w)
  | boxed {t u v w} : RMigrates env env' t u v w → RMigrates env env' t (.box u) v (.box w)
  | unboxed {t u v w} : RMigrates env env' t u v w → RMigrates env env' (.box t) u (.box v) w
  | list {t u a b} (ps : List (Val × Val)) : RonList t a → ListOf u b → (∀ p ∈ ps, RMigrates env env' a b p.1 p.2) →
      RMigrates env env' t u (.seq (ps.map (·.1))) (.seq (ps.map (·.2)))
  | none {t u} : RMigrates env env' (.option t) (.option u) .none .none
  | some {t u v w} : RMigrates env env' t u v w → RMigrates env env' (.option t) (.option u) (.some v) (.some w)
  /-- Component by component. -/
  | parens {t u c c'} (ps : List ((Ty × Ty) × (Val × Val))) : Parens env t (ps.map (·.1.1)) c →
      Parens env' u (ps.map (·.1.2)) c' → (∀ p ∈ ps, RMigrates env env' p.1.1 p.1.2 p.2.1 p.2.2) →
      RMigrates env env' t u (c (ps.map (·.2.1))) (c' (ps.map (·.2.2)))
  /-- The same keys, in the same order. -/
  | hmap {k t u} (ps : List (Val × Val × Val)) : (∀ p ∈ ps, RMigrates env env' t u p.2.1 p.2.2) →
      RMigrates env env' (.hmap k t) (.hmap k u) (.seq (ps.map fun p => .entry p.1 p.2.1)) (.seq (ps.map fun p => .entry p.1 p.2.2))
  | bmap {k t u} (ps : List (Val × Val × Val)) : (∀ p ∈ ps, RMigrates env env' t u p.2.1 p.2.2) →
      RMigrates env env' (.bmap k t) (.bmap k u) (.seq (ps.map fun p => .entry p.1 p.2.1)) (.seq (ps.map fun p => .entry p.1 p.2.2))
  | struct {i j : Nat} {fs gs : List Field} {cd cd' nul nul' : Bool} {vs ws : List Val} (M : Field → Field → Val → Val → Prop) :
      env.defs[i]? = some (.struct fs cd nul) → env'.defs[j]? = some (.struct gs cd' nul') →
      FieldsMigrate M neverNull fs gs vs ws → (∀ f g v w, M f g v w → RMigrates env env' f.ty g.ty v w) →
      RMigrates env env' (.named i) (.named j) (.struct vs) (.struct ws)
  | variant {i j : Nat} {vars vars' : List Variant} {m n : Nat} {var var' : Variant} :
      env.defs[i]? = some (.enum vars) → env'.defs[j]? = some (.enum vars') →
      vars[m]? = some var → vars'[n]? = some var' → var.name = var'.name → var.shape = .unit → var'.shape = .unit →
      RMigrates env env' (.named i) (.named j) (.variant m []) (.variant n [])
  | tupleVariant {i j : Nat} {vars vars' : List Variant} {m n : Nat} {var var' : Variant} (ps : List ((Ty × Ty) × (Val × Val))) :
      env.defs[i]? = some (.enum vars) → env'.defs[j]? = some (.enum vars') →
      vars[m]? = some var → vars'[n]? = some var' → var.name = var'.name →
      var.shape = .tuple (ps.map (·.1.1)) → var'.shape = .tuple (ps.map (·.1.2)) →
      (∀ p ∈ ps, RMigrates env env' p.1.1 p.1.2 p.2.1 p.2.2) →
      RMigrates env env' (.named i) (.named j) (.variant m (ps.map (·.2.1))) (.variant n (ps.map (·.2.2)))
  | structVariant {i j : Nat} {vars vars' : List Variant} {m n : Nat} {var var' : Variant} {fs gs : List Field} {vs ws : List Val}
      (M : Field → Field → Val → Val → Prop) :
      env.defs[i]? = some (.enum vars) → env'.defs[j]? = some (.enum vars') →
      vars[m]? = some var → vars'[n]? = some var' → var.name = var'.name →
      var.shape = .named fs → var'.shape = .named gs →
      FieldsMigrate M neverNull fs gs vs ws → (∀ f g v w, M f g v w → RMigrates env env' f.ty g.ty v w) →
      RMigrates env env' (.named i) (.named j) (.variant m vs) (.variant n ws)

end NS
