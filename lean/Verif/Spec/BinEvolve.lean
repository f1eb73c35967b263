import Verif.Spec.Evolve
import Verif.Spec.BinRead
/-!
# Changing a program while keeping its bytes

`env` is one version of a program, `env'` another (unchanged types are simply their own new version).  The binary format writes no names: a struct, a tuple struct, a
tuple and an array are just their parts one after the other, an enum is the number of the variant and its parts.
-/
namespace NS

/-- A part of a value: its type, and the default value if it is not written at all (`skip`). -/
abbrev Part := Ty × Option Val

/-- A part that is written. -/
def plain (t : Ty) : Part := (t, none)

/-- The parts of a struct field. -/
def Field.part (f : Field) : Part := (f.ty, if f.skip then some f.tyDefault else none)

/-- The parts of a tuple, an array, a struct or a tuple struct. -/
def Env.parts (env : Env) : Ty → Option (List Part)
  | .unit => some []
  | .array t n => some (List.replicate n (plain t))
  | .pair a b => some [plain a, plain b]
  | .triple a b c => some [plain a, plain b, plain c]
  | .quad a b c d => some [plain a, plain b, plain c, plain d]
  | .named i => match env.defs[i]? with
    | some (.struct fs _ _) => some (fs.map Field.part)
    | some (.tuple ts _) => some (ts.map plain)
    | _ => none
  | _ => none

/-- The types of the parts of a variant (`skip` has no effect in a struct variant). -/
def Shape.parts : Shape → List Ty
  | .unit => []
  | .tuple ts => ts
  | .named fs => fs.map (·.ty)

/-- The variants of an enum. -/
def Env.variants (env : Env) : Ty → Option (List (List Ty))
  | .named i => match env.defs[i]? with
    | some (.enum vars) => some (vars.map fun v => v.shape.parts)
    | _ => none
  | _ => none

/-- The value with the given parts. -/
def fromParts : Ty → List Val → Val
  | .unit, _ => .unit
  | .named _, vs => .struct vs
  | _, vs => .seq vs

/-- Parts that correspond, one by one, by `T`; unwritten parts are dropped or added anywhere. -/
inductive PartsEvo (T : Ty → Ty → Prop) : List Part → List Part → Prop where
  | nil : PartsEvo T [] []
  | keep {t u ps qs} : T t u → PartsEvo T ps qs → PartsEvo T (plain t :: ps) (plain u :: qs)
  | drop {t d ps qs} : PartsEvo T ps qs → PartsEvo T ((t, some d) :: ps) qs
  | add {u d ps qs} : PartsEvo T ps qs → PartsEvo T ps ((u, some d) :: qs)

/-- Types written as a length and that many items of type `a`. -/
inductive Counted : Ty → Ty → Prop where
  | vec {a} : Counted (.vec a) a
  | linked {a} : Counted (.linked a) a
  | hset {a} : Counted (.hset a) a
  | bset {a} : Counted (.bset a) a

/-- Types written as a length and that many entries. -/
inductive CountedMap : Ty → Ty → Ty → Prop where
  | hmap {k a} : CountedMap (.hmap k a) k a
  | bmap {k a} : CountedMap (.bmap k a) k a

/-- Types without parts. -/
def Scalar : Ty → Prop
  | .unit | .bool | .int _ | .f32 | .f64 | .str | .dur | .time => True
  | _ => False

/-- Types by which a type may be replaced.  `R t u`: `u` is the new version of the tuple, struct or enum `t`. -/
inductive BinTyEvo (env env' : Env) (R : Ty → Ty → Prop) : Ty → Ty → Prop where
  | same {t} : Scalar t → BinTyEvo env env' R t t
  | version {t u} : R t u → BinTyEvo env env' R t u
  /-- `usize` is written as a `u64` -/
  | usizeU64 : BinTyEvo env env' R (.int .usize) (.int .u64)
  | u64Usize : BinTyEvo env env' R (.int .u64) (.int .usize)
  | boxed {t u} : BinTyEvo env env' R t u → BinTyEvo env env' R t (.box u)
  | unboxed {t u} : BinTyEvo env env' R t u → BinTyEvo env env' R (.box t) u
  /-- `T` becomes a struct (or tuple struct, or array) of one `T`, or the other way round -/
  | wrap {t u u'} : env'.parts u' = some [plain u] → BinTyEvo env env' R t u → BinTyEvo env env' R t u'
  | unwrap {t u t'} : env.parts t' = some [plain t] → BinTyEvo env env' R t u → BinTyEvo env env' R t' u
  | option {t u} : BinTyEvo env env' R t u → BinTyEvo env env' R (.option t) (.option u)
  | list {t u a b} : Counted t a → Counted u b → BinTyEvo env env' R a b → BinTyEvo env env' R t u
  | map {t u k l a b} : CountedMap t k a → CountedMap u l b → BinTyEvo env env' R k l → BinTyEvo env env' R a b →
      BinTyEvo env env' R t u
  /-- a type with a `proxy`, when the proxy type changes -/
  | proxied {i j px px'} : env.proxies[i]? = some px → env'.proxies[j]? = some px' → BinTyEvo env env' R px.ty px'.ty →
      BinTyEvo env env' R (.proxied i) (.proxied j)

/-- `R` relates versions: the same written parts in the same order, whatever their names; for enums, the variants of
the old version are the first ones of the new version. -/
def BinEvolution (env env' : Env) (R : Ty → Ty → Prop) : Prop :=
  ∀ t u, R t u →
    (∃ ps qs, env.parts t = some ps ∧ env'.parts u = some qs ∧ PartsEvo (BinTyEvo env env' R) ps qs) ∨
    (∃ vs vs', env.variants t = some vs ∧ env'.variants u = some vs' ∧ ∀ (n : Nat) ts, vs[n]? = some ts →
      ∃ us, vs'[n]? = some us ∧ PartsEvo (BinTyEvo env env' R) (ts.map plain) (us.map plain))

/-- Parts with their values: unwritten parts of the old value are forgotten, those of the new value have their defaults. -/
inductive PartsMigrate (M : Ty → Ty → Val → Val → Prop) : List Part → List Part → List Val → List Val → Prop where
  | nil : PartsMigrate M [] [] [] []
  | keep {t u v w ps qs vs ws} : M t u v w → PartsMigrate M ps qs vs ws →
      PartsMigrate M (plain t :: ps) (plain u :: qs) (v :: vs) (w :: ws)
  | drop {t d v ps qs vs ws} : PartsMigrate M ps qs vs ws → PartsMigrate M ((t, some d) :: ps) qs (v :: vs) ws
  | add {u d ps qs vs ws} : PartsMigrate M ps qs vs ws → PartsMigrate M ps ((u, some d) :: qs) vs (d :: ws)

/-- `BinMigrates env env' t u v w`: the value `w` of the new type corresponds to the value `v` of the old type. -/
inductive BinMigrates (env env' : Env) : Ty → Ty → Val → Val → Prop where
  | same {t v} : Scalar t → BinMigrates env env' t t v v
  | word {k l} {i : Int} : (k = .usize ∧ l = .u64 ∨ k = .u64 ∧ l = .usize) → 0 ≤ i → i < 2 ^ 64 →
      BinMigrates env env' (.int k) (.int l) (.int i) (.int i)
  | boxed {t u v w} : BinMigrates env env' t u v w → BinMigrates env env' t (.box u) v (.box w)
  | unboxed {t u v w} : BinMigrates env env' t u v w → BinMigrates env env' (.box t) u (.box v) w
  | wrap {t u u' v w} : env'.parts u' = some [plain u] → BinMigrates env env' t u v w →
      BinMigrates env env' t u' v (fromParts u' [w])
  | unwrap {t u t' v w} : env.parts t' = some [plain t] → BinMigrates env env' t u v w →
      BinMigrates env env' t' u (fromParts t' [v]) w
  | none {t u} : BinMigrates env env' (.option t) (.option u) .none .none
  | some {t u v w} : BinMigrates env env' t u v w → BinMigrates env env' (.option t) (.option u) (.some v) (.some w)
  | list {t u a b} (ps : List (Val × Val)) : Counted t a → Counted u b → (∀ p ∈ ps, BinMigrates env env' a b p.1 p.2) →
      BinMigrates env env' t u (.seq (ps.map (·.1))) (.seq (ps.map (·.2)))
  | map {t u k l a b} (ps : List ((Val × Val) × (Val × Val))) : CountedMap t k a → CountedMap u l b →
      (∀ p ∈ ps, BinMigrates env env' k l p.1.1 p.1.2) → (∀ p ∈ ps, BinMigrates env env' a b p.2.1 p.2.2) →
      BinMigrates env env' t u (.seq (ps.map fun p => .entry p.1.1 p.2.1)) (.seq (ps.map fun p => .entry p.1.2 p.2.2))
  | parts {t u ps qs vs ws} (M : Ty → Ty → Val → Val → Prop) : env.parts t = some ps → env'.parts u = some qs →
      PartsMigrate M ps qs vs ws → (∀ a b x y, M a b x y → BinMigrates env env' a b x y) →
      BinMigrates env env' t u (fromParts t vs) (fromParts u ws)
  | variant {t u n cs ds ts us vs ws} (M : Ty → Ty → Val → Val → Prop) : env.variants t = some cs →
      env'.variants u = some ds → cs[n]? = some ts → ds[n]? = some us →
      PartsMigrate M (ts.map plain) (us.map plain) vs ws → (∀ a b x y, M a b x y → BinMigrates env env' a b x y) →
      BinMigrates env env' t u (.variant n vs) (.variant n ws)
  | proxied {i j px px' o p q} : env.proxies[i]? = some px → env'.proxies[j]? = some px' →
      BinMigrates env env' px.ty px'.ty p q → BinMigrates env env' (.proxied i) (.proxied j) (.prox o p) (.prox (px'.back q) q)

end NS
