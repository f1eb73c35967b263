import Verif.Model.Bytes
/-!
# Model of `src/serde_bin.rs` and `derive/src/serde_bin.rs`
-/
namespace NS

/-- `DeBinErrReason` (src/serde_bin.rs:58-69).  The text of `Range` is constant in the code. -/
inductive BinReason where
  | length (expected actual : Nat)
  | range
  | unknownDiscriminant (tag : Int)
deriving Repr, DecidableEq

/-- `DeBinErr` (src/serde_bin.rs:72-77). -/
structure BinErr where
  o : Nat
  msg : BinReason
deriving Repr, DecidableEq

/-- Code with access to `o : &mut usize` returning `Result<α, DeBinErr>`. -/
abbrev BinM := M BinErr Nat

/-- `a + b` on `usize`.  `checked` is the profile's `overflow-checks`: with it an overflow
panics, without it the sum wraps. -/
def addUsize (checked : Bool) (a b : Nat) : BinM Nat := fun o =>
  if a + b < 2 ^ 64 then .ok (a + b) o
  else if checked then .panic
  else .ok ((a + b) % 2 ^ 64) o

/-- Indexing `d[a..b]`: panics unless `a ≤ b ≤ d.len()`. -/
def slice (d : List Byte) (a b : Nat) : BinM (List Byte) := fun o =>
  if a ≤ b ∧ b ≤ d.length then .ok ((d.drop a).take (b - a)) o else .panic

/-- The body of `impl_ser_de_bin_for!`'s `de_bin` (src/serde_bin.rs:130-149): check, slice,
advance.  `u8`, `bool` and `Option`'s tag (lines 196-211, 225-244, 407-424) are the same code
with `expected_length = 1`; `usize` (lines 174-194) uses `d.get(..)`, which returns `None`
exactly when the range is out of bounds (see `readUsize`). -/
def readPrim (chk : Bool) (d : List Byte) (len : Nat) : BinM (List Byte) := do
  let o ← M.get
  let e ← addUsize chk o len
  if e > d.length then M.throw ⟨o, .length len d.length⟩
  else do
    let e' ← addUsize chk o len
    let bs ← slice d o e'
    M.set e'
    pure bs

/-- `impl DeBin for usize` (src/serde_bin.rs:174-194). `d.get(a..b)` is `None` if `a > b` or
`b > d.len()`. -/
def readUsize (chk : Bool) (d : List Byte) : BinM Nat := do
  let o ← M.get
  let e ← addUsize chk o 8
  if o ≤ e ∧ e ≤ d.length then do
    let e' ← addUsize chk o 8
    M.set e'
    pure (leVal ((d.drop o).take (e - o)))
  else M.throw ⟨o, .length 8 d.length⟩

/-- `Vec::with_capacity(len)` (src/serde_bin.rs:302): panics ("capacity overflow") when the
allocation would exceed `isize::MAX` bytes. -/
def vecCap (env : Env) (t : Ty) (len : Nat) : BinM Unit := fun o =>
  if len * env.memSize t ≤ isizeMax then .ok () o else .panic

/-- `HashSet/HashMap::with_capacity(len)` (src/serde_bin.rs:358, 605). -/
def hashCap (env : Env) (sz len : Nat) : BinM Unit := fun o =>
  if env.hashCapPanics sz len then .panic else .ok () o

/-- `impl DeBin for String` (src/serde_bin.rs:254-281). -/
def deBinStr (chk : Bool) (d : List Byte) : BinM (List Char) := do
  let len ← readUsize chk d
  let o ← M.get
  let e ← addUsize chk o len
  if e > d.length then M.throw ⟨o, .length 1 d.length⟩
  else do
    let e' ← addUsize chk o len
    let bs ← slice d o e'
    match fromUtf8 bs with
    | some s => do
      let e'' ← addUsize chk o len
      M.set e''
      pure s
    | none => M.throw ⟨o, .length len d.length⟩

/-- `Duration::new(secs, nanos)`: carries whole seconds, panics if that overflows. -/
def durNew (secs nanos : Nat) : BinM (Nat × Nat) := fun o =>
  if nanos < 1000000000 then .ok (secs, nanos) o
  else if secs + nanos / 1000000000 ≤ u64Max then
    .ok (secs + nanos / 1000000000, nanos % 1000000000) o
  else .panic

/-- `impl DeBin for Duration` (src/serde_bin.rs:674-688). -/
def deBinDur (chk : Bool) (d : List Byte) : BinM (Nat × Nat) := do
  let s ← readPrim chk d 8
  let n ← readPrim chk d 4
  if leVal n > 1000000000 then do
    let o ← M.get
    M.throw ⟨o, .range⟩
  else durNew (leVal s) (leVal n)

/-- `SystemTime::UNIX_EPOCH + duration` (src/serde_bin.rs:702): panics when the seconds do not
fit `i64`. -/
def epochPlus (secs nanos : Nat) : BinM Val := fun o =>
  if secs < 2 ^ 63 then .ok (.time secs nanos) o else .panic

/-- `for _ in 0..len { out.push(DeBin::de_bin(o, d)?) }` (src/serde_bin.rs:303-305, 330-332;
the array loop at 465-478 is the same up to cleanup). -/
def repeatM {ε σ α : Type} (x : M ε σ α) : Nat → M ε σ (List α)
  | 0 => pure []
  | n + 1 => do
    let a ← x
    let as ← repeatM x n
    pure (a :: as)

/-- `HashSet::insert`, modelled on the list of elements in insertion order (the order of
iteration of a hash container is unspecified; nothing proved depends on it). -/
def hsetInsert (env : Env) (s : List Val) (x : Val) : List Val :=
  if s.any (env.keyEq x) then s else s ++ [x]

/-- `HashMap::insert`: the value of an equal key is replaced, the old key is kept. -/
def hmapInsert (env : Env) : List Val → Val → Val → List Val
  | [], k, v => [.entry k v]
  | .entry k' v' :: m, k, v =>
    if env.keyEq k k' then .entry k' v :: m else .entry k' v' :: hmapInsert env m k v
  | e :: m, k, v => e :: hmapInsert env m k v

/-- `BTreeSet::insert` on the ascending list of elements. -/
def bsetInsert (env : Env) : List Val → Val → List Val
  | [], x => [x]
  | y :: s, x =>
    match env.cmp x y with
    | .lt => x :: y :: s
    | .eq => y :: s
    | .gt => y :: bsetInsert env s x

/-- `BTreeMap::insert` on the ascending list of entries. -/
def bmapInsert (env : Env) : List Val → Val → Val → List Val
  | [], k, v => [.entry k v]
  | .entry k' v' :: m, k, v =>
    match env.cmp k k' with
    | .lt => .entry k v :: .entry k' v' :: m
    | .eq => .entry k' v :: m
    | .gt => .entry k' v' :: bmapInsert env m k v
  | e :: m, k, v => e :: bmapInsert env m k v

/-- Which container an insertion loop fills. -/
inductive Coll where
  | hset | bset | hmap | bmap

/-- One insertion of a decoded item (an element, or an `entry` for maps). -/
def collInsert (env : Env) : Coll → List Val → Val → List Val
  | .hset, s, x => hsetInsert env s x
  | .bset, s, x => bsetInsert env s x
  | .hmap, s, .entry k v => hmapInsert env s k v
  | .bmap, s, .entry k v => bmapInsert env s k v
  | _, s, _ => s

/-- `for _ in 0..len { out.insert(DeBin::de_bin(o, d)?); }` (src/serde_bin.rs:359-361, 386-388,
606-610, 638-642). -/
def insertLoop (env : Env) (c : Coll) (x : BinM Val) : Nat → List Val → BinM (List Val)
  | 0, acc => pure acc
  | n + 1, acc => do
    let a ← x
    insertLoop env c x n (collInsert env c acc a)

/-- One map entry: `let k = de_bin(o, d)?; let v = de_bin(o, d)?` (src/serde_bin.rs:607-608). -/
def entryM (k v : BinM Val) : BinM Val := do
  let a ← k
  let b ← v
  pure (.entry a b)

/-- Components in order: tuples (src/serde_bin.rs:500-580), derived tuple structs and tuple
variants (derive/src/serde_bin.rs:173-226, 338-340). -/
def deTys {ε σ : Type} (f : Ty → M ε σ Val) : List Ty → M ε σ (List Val)
  | [] => pure []
  | t :: ts => do
    let a ← f t
    let as ← deTys f ts
    pure (a :: as)

/-- Fields of a derived named struct (derive/src/serde_bin.rs:122-149): skipped fields are
`Default::default()` and read nothing; `useSkip = false` is the struct-variant reader
(derive/src/serde_bin.rs:353-360), which ignores `skip`. -/
def deBinFields (f : Ty → BinM Val) (useSkip : Bool) : List Field → BinM (List Val)
  | [] => pure []
  | fd :: fs => do
    let a ← if useSkip ∧ fd.skip then pure fd.tyDefault else f fd.ty
    let as ← deBinFields f useSkip fs
    pure (a :: as)

/-- Fields of one enum variant (derive/src/serde_bin.rs:311-366). -/
def deBinShape (f : Ty → BinM Val) : Shape → BinM (List Val)
  | .unit => pure []
  | .tuple ts => deTys f ts
  | .named fs => deBinFields f false fs

/-- `DeBin::de_bin` for every type (src/serde_bin.rs; derive/src/serde_bin.rs).  `chk` is the
overflow-check profile, `d` the input, the state is `*o`. -/
def deBin (env : Env) (chk : Bool) (d : List Byte) : Nat → Ty → BinM Val
  | 0, _ => M.oof
  | n + 1, t =>
    match t with
    | .unit => pure .unit                                          -- 493-498
    | .bool => do                                                  -- 225-244
      let bs ← readPrim chk d 1
      pure (.bool (leVal bs != 0))
    | .int .usize => do                                            -- 174-194
      let m ← readUsize chk d
      pure (.int m)
    | .int k => do                                                 -- 130-149, 196-211
      let bs ← readPrim chk d k.bytes
      pure (.int (ofTwos k.signed k.bytes (leVal bs)))
    | .f32 => do                                                   -- 155
      let bs ← readPrim chk d 4
      pure (.f32 (BitVec.ofNat 32 (leVal bs)))
    | .f64 => do                                                   -- 154
      let bs ← readPrim chk d 8
      pure (.f64 (BitVec.ofNat 64 (leVal bs)))
    | .str => do                                                   -- 254-281
      let s ← deBinStr chk d
      pure (.str s)
    | .dur => do                                                   -- 674-688
      let (s, ns) ← deBinDur chk d
      pure (.dur s ns)
    | .time => do                                                  -- 698-706
      let tag ← readPrim chk d 1
      if leVal tag = 1 then do
        let (s, ns) ← deBinDur chk d
        epochPlus s ns
      else pure (.time 0 0)
    | .option t => do                                              -- 407-429
      let tag ← readPrim chk d 1
      if leVal tag = 1 then do
        let v ← deBin env chk d n t
        pure (.some v)
      else pure .none
    | .vec t => do                                                 -- 296-308
      let len ← readUsize chk d
      vecCap env t len
      let vs ← repeatM (deBin env chk d n t) len
      pure (.seq vs)
    | .linked t => do                                              -- 323-335
      let len ← readUsize chk d
      let vs ← repeatM (deBin env chk d n t) len
      pure (.seq vs)
    | .hset t => do                                                -- 351-364
      let len ← readUsize chk d
      hashCap env (env.memSize t) len
      let vs ← insertLoop env .hset (deBin env chk d n t) len []
      pure (.seq vs)
    | .bset t => do                                                -- 379-391
      let len ← readUsize chk d
      let vs ← insertLoop env .bset (deBin env chk d n t) len []
      pure (.seq vs)
    | .array t len => do                                           -- 452-484
      let vs ← repeatM (deBin env chk d n t) len
      pure (.seq vs)
    | .pair a b => do                                              -- 511-519
      let vs ← deTys (deBin env chk d n) [a, b]
      pure (.seq vs)
    | .triple a b c => do                                          -- 534-547
      let vs ← deTys (deBin env chk d n) [a, b, c]
      pure (.seq vs)
    | .quad a b c e => do                                          -- 564-580
      let vs ← deTys (deBin env chk d n) [a, b, c, e]
      pure (.seq vs)
    | .hmap k v => do                                              -- 597-613
      let len ← readUsize chk d
      hashCap env (env.memSize k + env.memSize v) len
      let vs ← insertLoop env .hmap (entryM (deBin env chk d n k) (deBin env chk d n v)) len []
      pure (.seq vs)
    | .bmap k v => do                                              -- 630-645
      let len ← readUsize chk d
      let vs ← insertLoop env .bmap (entryM (deBin env chk d n k) (deBin env chk d n v)) len []
      pure (.seq vs)
    | .box t => do                                                 -- 656-663
      let v ← deBin env chk d n t
      pure (.box v)
    | .named i =>
      match env.defs[i]? with
      | .some (.struct fs _ _) => do                               -- derive: 118-171
        let vs ← deBinFields (deBin env chk d n) true fs
        pure (.struct vs)
      | .some (.tuple ts _) => do                                  -- derive: 173-226
        let vs ← deTys (deBin env chk d n) ts
        pure (.struct vs)
      | .some (.enum vars) => do                                   -- derive: 307-391
        let id ← readPrim chk d 2
        match vars[leVal id]? with
        | .some var => do
          let vs ← deBinShape (deBin env chk d n) var.shape
          pure (.variant (leVal id) vs)
        | .none => M.throw ⟨0, .unknownDiscriminant (leVal id)⟩
      | .none => M.oof   -- no such type: not a program
    | .proxied i =>                                                -- derive: 25-37, 123-132
      match env.proxies[i]? with
      | .some px => do
        let p ← deBin env chk d n px.ty
        let o := px.back p
        pure (.prox o (px.into o))
      | .none => M.oof   -- no such type: not a program

/-- `impl SerBin for usize` (src/serde_bin.rs:166-172), used for every length prefix. -/
def serUsize (n : Nat) : List Byte := leBytes 8 n

/-- `impl SerBin for Duration` (src/serde_bin.rs:665-672). -/
def serBinDur (secs nanos : Nat) : List Byte := leBytes 8 secs ++ leBytes 4 nanos

mutual
/-- The bytes `SerBin::ser_bin` appends to its output (src/serde_bin.rs;
derive/src/serde_bin.rs). Ill-typed combinations, which Rust's type checker excludes, give `[]`. -/
def serBin (env : Env) : Ty → Val → List Byte
  | .bool, .bool b => [if b then 1 else 0]                         -- 219-223
  | .int .usize, .int i => serUsize i.toNat                        -- 166-172
  | .int k, .int i => leBytes k.bytes (toTwos k.bytes i)           -- 123-126, 213-217
  | .f32, .f32 x => leBytes 4 x.toNat                              -- 155
  | .f64, .f64 x => leBytes 8 x.toNat                              -- 154
  | .str, .str s => serUsize (utf8 s).length ++ utf8 s             -- 246-252
  | .dur, .dur s n => serBinDur s n                                -- 665-672
  | .time, .time s n =>                                            -- 690-696
    if 0 ≤ s then 1 :: serBinDur s.toNat n else [0]
  | .option _, .none => [0]                                        -- 393-405
  | .option t, .some v => 1 :: serBin env t v
  | .vec t, .seq vs => serUsize vs.length ++ serBinAll env t vs    -- 283-294
  | .linked t, .seq vs => serUsize vs.length ++ serBinAll env t vs -- 310-321
  | .hset t, .seq vs => serUsize vs.length ++ serBinAll env t vs   -- 337-349
  | .bset t, .seq vs => serUsize vs.length ++ serBinAll env t vs   -- 366-377
  | .array t _, .seq vs => serBinAll env t vs                      -- 431-450
  | .pair a b, .seq vs => serBinTys env [a, b] vs                  -- 500-509
  | .triple a b c, .seq vs => serBinTys env [a, b, c] vs           -- 521-532
  | .quad a b c d, .seq vs => serBinTys env [a, b, c, d] vs        -- 549-562
  | .hmap k v, .seq vs => serUsize vs.length ++ serBinEntries env k v vs  -- 581-595
  | .bmap k v, .seq vs => serUsize vs.length ++ serBinEntries env k v vs  -- 615-628
  | .box t, .box v => serBin env t v                               -- 647-654
  | .named i, .struct vs =>
    match env.defs[i]? with
    | .some (.struct fs _ _) => serBinFields env true fs vs        -- derive: 39-78
    | .some (.tuple ts _) => serBinTys env ts vs                   -- derive: 80-116
    | _ => []
  | .named i, .variant j vs =>                                     -- derive: 228-305
    match env.defs[i]? with
    | .some (.enum vars) =>
      match vars[j]? with
      | .some ⟨_, _, .unit⟩ => leBytes 2 j
      | .some ⟨_, _, .tuple ts⟩ => leBytes 2 j ++ serBinTys env ts vs
      | .some ⟨_, _, .named fs⟩ => leBytes 2 j ++ serBinFields env false fs vs
      | .none => []
    | _ => []
  | .proxied i, .prox _ p =>                                       -- derive: 11-23, 45-52
    match env.proxies[i]? with
    | .some px => serBin env px.ty p
    | .none => []
  | _, _ => []
/-- Items in iteration order. -/
def serBinAll (env : Env) (t : Ty) : List Val → List Byte
  | [] => []
  | v :: vs => serBin env t v ++ serBinAll env t vs
/-- Map entries in iteration order, key then value. -/
def serBinEntries (env : Env) (k t : Ty) : List Val → List Byte
  | [] => []
  | .entry a b :: vs => serBin env k a ++ serBin env t b ++ serBinEntries env k t vs
  | _ :: vs => serBinEntries env k t vs
/-- Tuple components. -/
def serBinTys (env : Env) : List Ty → List Val → List Byte
  | t :: ts, v :: vs => serBin env t v ++ serBinTys env ts vs
  | _, _ => []
/-- Struct fields; skipped fields write nothing (struct variants ignore `skip`). -/
def serBinFields (env : Env) (useSkip : Bool) : List Field → List Val → List Byte
  | f :: fs, v :: vs =>
    (if useSkip ∧ f.skip then [] else serBin env f.ty v) ++ serBinFields env useSkip fs vs
  | _, _ => []
end

/-- `SerBin::serialize_bin` (src/serde_bin.rs:15-19). -/
def serializeBin (env : Env) (t : Ty) (v : Val) : List Byte := serBin env t v

/-- `DeBin::deserialize_bin` (src/serde_bin.rs:37-39). -/
def deserializeBin (env : Env) (chk : Bool) (n : Nat) (t : Ty) (d : List Byte) :
    Out BinErr Nat Val := deBin env chk d n t 0

end NS
