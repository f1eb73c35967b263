/-!
# Base of the model: outcomes, the universe of types and values

nanoserde is a family of trait impls (`src/serde_bin.rs`, `src/serde_json.rs`,
`src/serde_ron.rs`) plus derive macros which generate further impls
(`derive/src/serde_*.rs`).  The model interprets a *universe* of types `Ty`, with
user definitions kept in an environment `Env`, over untyped trees `Val` constrained by
the typing predicate `HasTy`.
-/

namespace NS

/-- Outcome of a piece of Rust code that returns `Result<α, ε>` and mutates a state `σ`
through `&mut`.  `panic` is a Rust panic, `oof` means "the fuel given to the model was not
enough" (see DESIGN.md: *hangs* is `oof` for every fuel). -/
inductive Out (ε σ α : Type) where
  | ok (a : α) (s : σ)
  | err (e : ε) (s : σ)
  | panic
  | oof
deriving Repr, DecidableEq

/-- Code with `&mut σ` access returning `Result<α, ε>`. -/
def M (ε σ α : Type) : Type := σ → Out ε σ α

namespace M
variable {ε σ α β : Type}

/-- Rust `Ok(a)`. -/
@[reducible] def pure (a : α) : M ε σ α := fun s => .ok a s

/-- Rust `x?; f` : an error, a panic or divergence of `x` propagates. -/
def bind (x : M ε σ α) (f : α → M ε σ β) : M ε σ β := fun s =>
  match x s with
  | .ok a s' => f a s'
  | .err e s' => .err e s'
  | .panic => .panic
  | .oof => .oof

instance : Monad (M ε σ) where
  pure := M.pure
  bind := M.bind

/-- Read the state. -/
def get : M ε σ σ := fun s => .ok s s
/-- Overwrite the state. -/
def set (s : σ) : M ε σ Unit := fun _ => .ok () s
/-- Update the state. -/
def modify (f : σ → σ) : M ε σ Unit := fun s => .ok () (f s)
/-- `return Err(e)`. -/
def throw (e : ε) : M ε σ α := fun s => .err e s
/-- A Rust panic. -/
def panic : M ε σ α := fun _ => .panic
/-- Fuel exhausted. -/
def oof : M ε σ α := fun _ => .oof

end M

/-- The integer types that have impls. `usize` is 64 bits wide (the modelled target). -/
inductive IntKind where
  | u8 | u16 | u32 | u64 | usize | u128 | i8 | i16 | i32 | i64 | i128
deriving Repr, DecidableEq

namespace IntKind
/-- Signedness. -/
def signed : IntKind → Bool
  | u8 | u16 | u32 | u64 | usize | u128 => false
  | i8 | i16 | i32 | i64 | i128 => true
/-- Size in bytes. -/
def bytes : IntKind → Nat
  | u8 | i8 => 1
  | u16 | i16 => 2
  | u32 | i32 => 4
  | u64 | i64 | usize => 8
  | u128 | i128 => 16
/-- Smallest value. -/
def lo (k : IntKind) : Int := if k.signed then -(2 ^ (8 * k.bytes - 1)) else 0
/-- Largest value. -/
def hi (k : IntKind) : Int := if k.signed then 2 ^ (8 * k.bytes - 1) - 1 else 2 ^ (8 * k.bytes) - 1
/-- The value is representable. -/
def inRange (k : IntKind) (i : Int) : Prop := k.lo ≤ i ∧ i ≤ k.hi
instance (k : IntKind) (i : Int) : Decidable (k.inRange i) := inferInstanceAs (Decidable (_ ∧ _))
end IntKind

/-- The integer types with JSON and RON impls (src/serde_json.rs:763-771,
src/serde_ron.rs:766-774); the 128-bit types have none. -/
def IntKind.textual : IntKind → Bool
  | .u128 | .i128 => false
  | _ => true

/-- Types that implement the traits: one constructor per impl in `src/serde_*.rs`, plus
`named` (a type with derived impls, definition in the `Env`) and `proxied` (a type whose
derive has `#[nserde(proxy = "..")]`, or a field with that attribute). -/
inductive Ty where
  | unit | bool
  | int (k : IntKind)
  | f32 | f64
  | str
  | dur            -- core::time::Duration
  | time           -- std::time::SystemTime
  | option (t : Ty)
  | vec (t : Ty)
  | linked (t : Ty)  -- LinkedList
  | hset (t : Ty)    -- HashSet
  | bset (t : Ty)    -- BTreeSet
  | array (t : Ty) (n : Nat)  -- [T; N]
  | pair (a b : Ty)
  | triple (a b c : Ty)
  | quad (a b c d : Ty)
  | hmap (k v : Ty)  -- HashMap
  | bmap (k v : Ty)  -- BTreeMap
  | box (t : Ty)
  | named (i : Nat)
  | proxied (i : Nat)
deriving Repr, DecidableEq

/-- Values.  Characters are Unicode scalars (Rust `char` = Lean `Char`), strings are lists of
them.  Floats are bit patterns.  `dur` is seconds and nanoseconds (normalised: nanos < 10^9),
`time` an instant as whole seconds since the epoch (possibly negative) and nanoseconds.
`seq` represents `Vec`, `LinkedList`, sets, arrays and tuples in iteration order; maps are a
`seq` of `entry`s in iteration order.  `prox o p` is a value `o` of a proxied type together
with its proxy image `p` (`HasTy` forces `p = into o`). -/
inductive Val where
  | unit
  | bool (b : Bool)
  | int (i : Int)
  | f32 (x : BitVec 32)
  | f64 (x : BitVec 64)
  | str (s : List Char)
  | dur (secs nanos : Nat)
  | time (secs : Int) (nanos : Nat)
  | none
  | some (v : Val)
  | seq (vs : List Val)
  | entry (k v : Val)
  | box (v : Val)
  | struct (vs : List Val)
  | variant (i : Nat) (vs : List Val)
  | prox (orig img : Val)
deriving Repr, Inhabited

/-- A field of a derived struct or struct variant, after attribute processing
(`derive/src/parse.rs` `Field`, `derive/src/shared.rs`).
* `optSyn` : `field.ty.base() == "Option"`, the *syntactic* test the macros use;
* `skip`, `rename`, `noneAsNull` : the attributes;
* `dfltAttr` : the value of the default expression if the field has `default`,
  `default = ".."` or `default_with = ".."`;
* `tyDefault` : the value of `Default::default()` at the field's type;
* `optProxy` (JSON only): the type is `Option<T>` and the field has a `proxy` attribute, in which
  case `ty` is `option (proxied i)` with `i` the proxy of `T`. -/
structure Field where
  name : List Char
  ty : Ty
  rename : Option (List Char) := none
  optSyn : Bool := false
  skip : Bool := false
  noneAsNull : Bool := false
  dfltAttr : Option Val := none
  tyDefault : Val := .unit
  optProxy : Bool := false

/-- Shape of an enum variant (`Category::None`, `Tuple`, `AnonymousStruct`). -/
inductive Shape where
  | unit
  | tuple (ts : List Ty)
  | named (fs : List Field)

/-- An enum variant. -/
structure Variant where
  name : List Char
  rename : Option (List Char) := none
  shape : Shape

/-- A user definition with derived impls.
`struct`: named struct with container attributes `default`/`default_with` (the RON derive only
looks at `default`) and `serialize_none_as_null`; `tuple`: tuple or unit struct with `transparent`. -/
inductive Def where
  | struct (fs : List Field) (containerDefault : Bool) (noneAsNull : Bool)
  | tuple (ts : List Ty) (transparent : Bool)
  | enum (vs : List Variant)

/-- A proxy: `#[nserde(proxy = "P")]` with `P: From<&T>` and `T: From<&P>`. -/
structure Proxy where
  ty : Ty
  into : Val → Val
  back : Val → Val

/-- The user's program as seen by the impls: derived definitions, proxies, the `Ord` impls of
key types and the `Eq` used by hash containers, and the in-memory size of types (only relevant
for `with_capacity` overflow). -/
structure Env where
  defs : List Def := []
  proxies : List Proxy := []
  cmp : Val → Val → Ordering
  keyEq : Val → Val → Bool
  memSize : Ty → Nat := fun _ => 8
  /-- `HashMap/HashSet::with_capacity(n)` for entries of the given byte size panics
  ("Hash table capacity overflow"). -/
  hashCapPanics : Nat → Nat → Bool := fun _ _ => false

/-- `isize::MAX` on the modelled target: the largest allocation. -/
def isizeMax : Nat := 2 ^ 63 - 1
/-- `u64::MAX`, `usize::MAX`. -/
def u64Max : Nat := 2 ^ 64 - 1

/-- Laws of `Ord`/`Eq` impls of key types that std's containers require: `cmp` is a total
order whose equality is equality of values. -/
structure LawfulKeys (env : Env) : Prop where
  eq_iff : ∀ a b, env.cmp a b = .eq ↔ a = b
  lt_iff_gt : ∀ a b, env.cmp a b = .lt ↔ env.cmp b a = .gt
  lt_trans : ∀ a b c, env.cmp a b = .lt → env.cmp b c = .lt → env.cmp a c = .lt
  keyEq_iff : ∀ a b, env.keyEq a b = true ↔ a = b

/-- The key of a map entry. -/
def Val.key : Val → Val
  | .entry k _ => k
  | v => v

mutual
/-- Well-typed values.  A value of `HashSet`/`HashMap` type has pairwise distinct elements/keys
in arbitrary order, one of `BTreeSet`/`BTreeMap` type strictly ascending ones.  Lengths obey
std's own bounds (an existing container never violates them). -/
def HasTy (env : Env) : Ty → Val → Prop
  | .unit, .unit => True
  | .bool, .bool _ => True
  | .int k, .int i => k.inRange i
  | .f32, .f32 _ => True
  | .f64, .f64 _ => True
  | .str, .str _ => True
  | .dur, .dur s n => s ≤ u64Max ∧ n < 1000000000
  | .time, .time s n => -(2 ^ 63 : Int) ≤ s ∧ s < 2 ^ 63 ∧ n < 1000000000
  | .option _, .none => True
  | .option t, .some v => HasTy env t v
  | .vec t, .seq vs => AllTy env t vs ∧ vs.length ≤ u64Max ∧ vs.length * env.memSize t ≤ isizeMax
  | .linked t, .seq vs => AllTy env t vs ∧ vs.length ≤ u64Max
  | .hset t, .seq vs => AllTy env t vs ∧ vs.length ≤ u64Max ∧
      env.hashCapPanics (env.memSize t) vs.length = false ∧ vs.Pairwise (· ≠ ·)
  | .bset t, .seq vs => AllTy env t vs ∧ vs.length ≤ u64Max ∧
      vs.Pairwise (fun a b => env.cmp a b = .lt)
  | .array t n, .seq vs => AllTy env t vs ∧ vs.length = n
  | .pair a b, .seq vs => TysTy env [a, b] vs
  | .triple a b c, .seq vs => TysTy env [a, b, c] vs
  | .quad a b c d, .seq vs => TysTy env [a, b, c, d] vs
  | .hmap k v, .seq vs => EntriesTy env k v vs ∧ vs.length ≤ u64Max ∧
      env.hashCapPanics (env.memSize k + env.memSize v) vs.length = false ∧
      vs.Pairwise (fun a b => a.key ≠ b.key)
  | .bmap k v, .seq vs => EntriesTy env k v vs ∧ vs.length ≤ u64Max ∧
      vs.Pairwise (fun a b => env.cmp a.key b.key = .lt)
  | .box t, .box v => HasTy env t v
  | .named i, .struct vs =>
      match env.defs[i]? with
      | .some (.struct fs _ _) => FieldsTy env fs vs
      | .some (.tuple ts _) => TysTy env ts vs
      | _ => False
  | .named i, .variant j vs =>
      match env.defs[i]? with
      | .some (.enum vars) =>
        match vars[j]? with
        | .some ⟨_, _, .unit⟩ => vs = []
        | .some ⟨_, _, .tuple ts⟩ => TysTy env ts vs
        | .some ⟨_, _, .named fs⟩ => FieldsTy env fs vs
        | .none => False
      | _ => False
  | .proxied i, .prox o p =>
      match env.proxies[i]? with
      | .some px => HasTy env px.ty p ∧ px.into o = p ∧ px.back p = o
      | .none => False
  | _, _ => False
/-- Every element has type `t`. -/
def AllTy (env : Env) (t : Ty) : List Val → Prop
  | [] => True
  | v :: vs => HasTy env t v ∧ AllTy env t vs
/-- Every element is an entry with key type `k` and value type `t`. -/
def EntriesTy (env : Env) (k t : Ty) : List Val → Prop
  | [] => True
  | .entry a b :: vs => HasTy env k a ∧ HasTy env t b ∧ EntriesTy env k t vs
  | _ :: _ => False
/-- Component-wise typing of tuples. -/
def TysTy (env : Env) : List Ty → List Val → Prop
  | [], [] => True
  | t :: ts, v :: vs => HasTy env t v ∧ TysTy env ts vs
  | _, _ => False
/-- Component-wise typing of struct fields.  A field whose type is syntactically `Option` has
an `Option` type. -/
def FieldsTy (env : Env) : List Field → List Val → Prop
  | [], [] => True
  | f :: fs, v :: vs => HasTy env f.ty v ∧ FieldsTy env fs vs
  | _, _ => False
end

end NS
