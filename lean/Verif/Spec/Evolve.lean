import Verif.Spec.JsonMeans
import Verif.Spec.JsonSafe
/-!
# Changing a program while keeping its JSON

`env` is the old program, `env'` the new one; `R i j` says that the type number `j` of the new program replaces the
type number `i` of the old one.  `TyEvo`, `DefEvo`, `Evolution`: which changes are meant.  `Migrates`: which value
of the new program corresponds to a value of the old one.
-/
namespace NS

/-- The new program keeps the types of the old one (unchanged, beside the new versions). -/
structure Extends (env env' : Env) : Prop where
  defs : ∀ (i : Nat) d, env.defs[i]? = some d → env'.defs[i]? = some d
  proxies : ∀ (i : Nat) px, env.proxies[i]? = some px → env'.proxies[i]? = some px
  cmp : env'.cmp = env.cmp

/-- Types written as a JSON array of any number of items of type `a`. -/
inductive WrittenAsList : Ty → Ty → Prop where
  | vec {a} : WrittenAsList (.vec a) a
  | linked {a} : WrittenAsList (.linked a) a
  | hset {a} : WrittenAsList (.hset a) a
  | bset {a} : WrittenAsList (.bset a) a
  | array {a n} : WrittenAsList (.array a n) a

/-- Types whose values are all lists of values of type `a`. -/
inductive ListOf : Ty → Ty → Prop where
  | vec {a} : ListOf (.vec a) a
  | linked {a} : ListOf (.linked a) a

/-- Types by which a type may be replaced. -/
inductive TyEvo (env env' : Env) (R : Nat → Nat → Prop) : Ty → Ty → Prop where
  | same {t} : TyEvo env env' R t t
  | named {i j} : R i j → TyEvo env env' R (.named i) (.named j)
  /-- a wider integer type -/
  | widen {k l} : k.textual = true → l.textual = true → (∀ i, k.inRange i → l.inRange i) →
      TyEvo env env' R (.int k) (.int l)
  /-- `T` becomes `Option<T>` -/
  | optional {t u} : TyEvo env env' R t u → TyEvo env env' R t (.option u)
  /-- `T` becomes `Box<T>`, or the other way round -/
  | boxed {t u} : TyEvo env env' R t u → TyEvo env env' R t (.box u)
  | unboxed {t u} : TyEvo env env' R t u → TyEvo env env' R (.box t) u
  /-- `T` becomes a transparent newtype of `T`, or the other way round -/
  | wrap {j t u} : env'.defs[j]? = some (.tuple [u] true) → TyEvo env env' R t u → TyEvo env env' R t (.named j)
  | unwrap {i t u} : env.defs[i]? = some (.tuple [t] true) → TyEvo env env' R t u → TyEvo env env' R (.named i) u
  /-- a set, an array or a list becomes a `Vec` or a `LinkedList` -/
  | list {t u a b} : WrittenAsList t a → ListOf u b → TyEvo env env' R a b → TyEvo env env' R t u
  | option {t u} : TyEvo env env' R t u → TyEvo env env' R (.option t) (.option u)
  | array {t u n} : TyEvo env env' R t u → TyEvo env env' R (.array t n) (.array u n)
  | pair {a b a' b'} : TyEvo env env' R a a' → TyEvo env env' R b b' → TyEvo env env' R (.pair a b) (.pair a' b')
  | triple {a b c a' b' c'} : TyEvo env env' R a a' → TyEvo env env' R b b' → TyEvo env env' R c c' →
      TyEvo env env' R (.triple a b c) (.triple a' b' c')
  | quad {a b c d a' b' c' d'} : TyEvo env env' R a a' → TyEvo env env' R b b' → TyEvo env env' R c c' →
      TyEvo env env' R d d' → TyEvo env env' R (.quad a b c d) (.quad a' b' c' d')
  /-- the values of a map (not its keys) -/
  | hmap {k t u} : TyEvo env env' R t u → TyEvo env env' R (.hmap k t) (.hmap k u)
  | bmap {k t u} : TyEvo env env' R t u → TyEvo env env' R (.bmap k t) (.bmap k u)

/-- Does a struct with the container attribute `nul` write `null` for a `None` in the field? -/
def writesNull (nul : Bool) (f : Field) : Bool := (f.noneAsNull || nul) && !f.optProxy
/-- In a struct variant it never does. -/
def neverNull (_ : Field) : Bool := false

/-- The field is written when it holds `v`: it is not skipped, and not a `None` that is left out. -/
def Written (nulls : Field → Bool) (f : Field) (v : Val) : Prop :=
  f.skip = false ∧ (f.optSyn = true → v = .none → nulls f = true)

/-- The field `g` may replace the field `f` of the same name: its type may replace that of `f`.  (An `Option` field
with a `proxy` must replace an `Option` field that is left out when it is `None`.) -/
def FieldEvo (env env' : Env) (R : Nat → Nat → Prop) (nulls : Field → Bool) (f g : Field) : Prop :=
  TyEvo env env' R f.ty g.ty ∧
  (g.optProxy = true → f.optSyn = true ∧ nulls f = false ∧ ∃ t, f.ty = .option t)

/-- Fields may be added if they may be absent (`Option`, `default`, `skip`), any field may be removed, fields may be
reordered, renamed in the source (keeping the JSON name by `rename`) and have their types replaced.  (A struct that
has no fields at all does not ignore members: not all fields may be removed.) -/
structure FieldsEvo (env env' : Env) (R : Nat → Nat → Prop) (nulls : Field → Bool) (cd : Bool) (fs gs : List Field) :
    Prop where
  kept : ∀ f ∈ fs, ∀ g ∈ gs, f.skip = false → g.skip = false → f.jsonName = g.jsonName → FieldEvo env env' R nulls f g
  added : ∀ g ∈ gs, g.mayBeAbsent cd ∨
    ∃ f ∈ fs, f.skip = false ∧ f.jsonName = g.jsonName ∧ (f.optSyn = true → nulls f = true)
  removed : gs = [] → ∀ f ∈ fs, f.skip = true

/-- Replacing the shape of a variant. -/
inductive ShapeEvo (env env' : Env) (R : Nat → Nat → Prop) : Shape → Shape → Prop where
  | unit : ShapeEvo env env' R .unit .unit
  | tuple (ps : List (Ty × Ty)) : (∀ p ∈ ps, TyEvo env env' R p.1 p.2) →
      ShapeEvo env env' R (.tuple (ps.map (·.1))) (.tuple (ps.map (·.2)))
  | named {fs gs} : FieldsEvo env env' R neverNull false fs gs → ShapeEvo env env' R (.named fs) (.named gs)

/-- Replacing a definition.  Enum variants may be added, reordered and renamed in the source (keeping the JSON name);
every old variant has a successor. -/
inductive DefEvo (env env' : Env) (R : Nat → Nat → Prop) : Def → Def → Prop where
  | struct {fs gs cd cd' nul nul'} : FieldsEvo env env' R (writesNull nul) cd' fs gs →
      DefEvo env env' R (.struct fs cd nul) (.struct gs cd' nul')
  | tuple {tr} (ps : List (Ty × Ty)) : (∀ p ∈ ps, TyEvo env env' R p.1 p.2) →
      DefEvo env env' R (.tuple (ps.map (·.1)) tr) (.tuple (ps.map (·.2)) tr)
  | enum {vars vars'} : (∀ var ∈ vars, ∃ var' ∈ vars', var'.jsonName = var.jsonName ∧ ShapeEvo env env' R var.shape var'.shape) →
      DefEvo env env' R (.enum vars) (.enum vars')

/-- Every replaced type is replaced by one that may replace it. -/
def Evolution (env env' : Env) (R : Nat → Nat → Prop) : Prop :=
  ∀ i j, R i j → ∃ d e, env.defs[i]? = some d ∧ env'.defs[j]? = some e ∧ DefEvo env env' R d e

/-- The fields `ws` of the new version, from the fields `vs` of the old one: what is written for a field goes to the field
of the same name, the others (and the skipped ones) get their defaults.  `M f g v w`: `w` corresponds to `v`. -/
def FieldsMigrate (M : Field → Field → Val → Val → Prop) (nulls : Field → Bool) (fs gs : List Field) (vs ws : List Val) : Prop :=
  ws.length = gs.length ∧
  (∀ g w f v, (g, w) ∈ gs.zip ws → (f, v) ∈ fs.zip vs → g.skip = false → Written nulls f v → f.jsonName = g.jsonName →
    M f g v w) ∧
  (∀ g w, (g, w) ∈ gs.zip ws → (g.skip = true ∨ ∀ f v, (f, v) ∈ fs.zip vs → Written nulls f v → f.jsonName ≠ g.jsonName) →
    w = g.absentValue)

/-- `Migrates env env' t u v w`: the value `w` of the new type `u` corresponds to the value `v` of the old type `t`. -/
inductive Migrates (env env' : Env) : Ty → Ty → Val → Val → Prop where
  | same {t v} : Migrates env env' t t v v
  | widen {k l} {i : Int} : Migrates env env' (.int k) (.int l) (.int i) (.int i)
  /-- What JSON writes as `null` becomes `None`, anything else `Some`. -/
  | nothing {t u v} : NullForm env t v → Migrates env env' t (.option u) v .none
  | something {t u v w} : ¬ NullForm env t v → Migrates env env' t u v w → Migrates env env' t (.option u) v (.some w)
  | boxed {t u v w} : Migrates env env' t u v w → Migrates env env' t (.box u) v (.box w)
  | unboxed {t u v w} : Migrates env env' t u v w → Migrates env env' (.box t) u (.box v) w
  | wrap {j t u v w} : env'.defs[j]? = some (.tuple [u] true) → Migrates env env' t u v w →
      Migrates env env' t (.named j) v (.struct [w])
  | unwrap {i t u v w} : env.defs[i]? = some (.tuple [t] true) → Migrates env env' t u v w →
      Migrates env env' (.named i) u (.struct [v]) w
  | list {t u a b} (ps : List (Val × Val)) : WrittenAsList t a → ListOf u b → (∀ p ∈ ps, Migrates env env' a b p.1 p.2) →
      Migrates env env' t u (.seq (ps.map (·.1))) (.seq (ps.map (·.2)))
  | none {t u} : Migrates env env' (.option t) (.option u) .none .none
  | some {t u v w} : Migrates env env' t u v w → Migrates env env' (.option t) (.option u) (.some v) (.some w)
  | array {t u n} (ps : List (Val × Val)) : (∀ p ∈ ps, Migrates env env' t u p.1 p.2) →
      Migrates env env' (.array t n) (.array u n) (.seq (ps.map (·.1))) (.seq (ps.map (·.2)))
  | pair {a b a' b' v₁ v₂ w₁ w₂} : Migrates env env' a a' v₁ w₁ → Migrates env env' b b' v₂ w₂ →
      Migrates env env' (.pair a b) (.pair a' b') (.seq [v₁, v₂]) (.seq [w₁, w₂])
  | triple {a b c a' b' c' v₁ v₂ v₃ w₁ w₂ w₃} : Migrates env env' a a' v₁ w₁ → Migrates env env' b b' v₂ w₂ →
      Migrates env env' c c' v₃ w₃ →
      Migrates env env' (.triple a b c) (.triple a' b' c') (.seq [v₁, v₂, v₃]) (.seq [w₁, w₂, w₃])
  | quad {a b c d a' b' c' d' v₁ v₂ v₃ v₄ w₁ w₂ w₃ w₄} : Migrates env env' a a' v₁ w₁ → Migrates env env' b b' v₂ w₂ →
      Migrates env env' c c' v₃ w₃ → Migrates env env' d d' v₄ w₄ →
      Migrates env env' (.quad a b c d) (.quad a' b' c' d') (.seq [v₁, v₂, v₃, v₄]) (.seq [w₁, w₂, w₃, w₄])
  /-- The same keys, in the same order. -/
  | hmap {k t u} (ps : List (Val × Val × Val)) : (∀ p ∈ ps, Migrates env env' t u p.2.1 p.2.2) →
      Migrates env env' (.hmap k t) (.hmap k u) (.seq (ps.map fun p => .entry p.1 p.2.1)) (.seq (ps.map fun p => .entry p.1 p.2.2))
  | bmap {k t u} (ps : List (Val × Val × Val)) : (∀ p ∈ ps, Migrates env env' t u p.2.1 p.2.2) →
      Migrates env env' (.bmap k t) (.bmap k u) (.seq (ps.map fun p => .entry p.1 p.2.1)) (.seq (ps.map fun p => .entry p.1 p.2.2))
  | struct {i j fs gs cd cd' nul nul' vs ws} (M : Field → Field → Val → Val → Prop) :
      env.defs[i]? = some (.struct fs cd nul) → env'.defs[j]? = some (.struct gs cd' nul') →
      FieldsMigrate M (writesNull nul) fs gs vs ws → (∀ f g v w, M f g v w → Migrates env env' f.ty g.ty v w) →
      Migrates env env' (.named i) (.named j) (.struct vs) (.struct ws)
  | tuple {i j tr} (ps : List ((Ty × Ty) × (Val × Val))) : env.defs[i]? = some (.tuple (ps.map (·.1.1)) tr) →
      env'.defs[j]? = some (.tuple (ps.map (·.1.2)) tr) → (∀ p ∈ ps, Migrates env env' p.1.1 p.1.2 p.2.1 p.2.2) →
      Migrates env env' (.named i) (.named j) (.struct (ps.map (·.2.1))) (.struct (ps.map (·.2.2)))
  | variant {i j vars vars' m n var var'} : env.defs[i]? = some (.enum vars) → env'.defs[j]? = some (.enum vars') →
      vars[m]? = some var → vars'[n]? = some var' → var.jsonName = var'.jsonName → var.shape = .unit → var'.shape = .unit →
      Migrates env env' (.named i) (.named j) (.variant m []) (.variant n [])
  | tupleVariant {i j vars vars' m n var var'} (ps : List ((Ty × Ty) × (Val × Val))) : env.defs[i]? = some (.enum vars) →
      env'.defs[j]? = some (.enum vars') → vars[m]? = some var → vars'[n]? = some var' → var.jsonName = var'.jsonName →
      var.shape = .tuple (ps.map (·.1.1)) → var'.shape = .tuple (ps.map (·.1.2)) →
      (∀ p ∈ ps, Migrates env env' p.1.1 p.1.2 p.2.1 p.2.2) →
      Migrates env env' (.named i) (.named j) (.variant m (ps.map (·.2.1))) (.variant n (ps.map (·.2.2)))
  | structVariant {i j vars vars' m n var var' fs gs vs ws} (M : Field → Field → Val → Val → Prop) :
      env.defs[i]? = some (.enum vars) → env'.defs[j]? = some (.enum vars') →
      vars[m]? = some var → vars'[n]? = some var' → var.jsonName = var'.jsonName →
      var.shape = .named fs → var'.shape = .named gs →
      FieldsMigrate M neverNull fs gs vs ws → (∀ f g v w, M f g v w → Migrates env env' f.ty g.ty v w) →
      Migrates env env' (.named i) (.named j) (.variant m vs) (.variant n ws)

end NS
