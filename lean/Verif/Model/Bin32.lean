import Verif.Model.Bin
/-!
# Model of `DeBin` (`src/serde_bin.rs`, `derive/src/serde_bin.rs`) on a target with 32-bit pointers

nanoserde is also used on such targets (wasm32).  `usize` then has 32 bits, but is still written as
eight bytes (`*self as u64`, src/serde_bin.rs:168) and read by `m as usize` (src/serde_bin.rs:192), which keeps the low
half.  The writers are the same code with the same effect: `NS.serBin`.  Everything that does not mention `usize` is shared
with `Model/Bin.lean`; the definitions here are those that do, and the reader built from them.
(`SystemTime` is taken to count seconds in an `i64`, as it does on 32-bit Unix targets.)
-/
namespace NS.W32

/-- `isize::MAX` on a 32-bit target: the largest slice and the largest allocation. -/
def isizeMax : Nat := 2 ^ 31 - 1

/-- `a + b` on a 32-bit `usize`, with or without `overflow-checks` (cf. `NS.addUsize`). -/
def addUsize (checked : Bool) (a b : Nat) : BinM Nat := fun o =>
  if a + b < 2 ^ 32 then .ok (a + b) o
  else if checked then .panic
  else .ok ((a + b) % 2 ^ 32) o

/-- `impl_ser_de_bin_for!`'s `de_bin` (src/serde_bin.rs:130-149), `u8`, `bool` and `Option`'s tag (lines 196-211, 225-244,
407-424). -/
def readPrim (chk : Bool) (d : List Byte) (len : Nat) : BinM (List Byte) := do
  let o ← M.get
  let e ← addUsize chk o len
  if e > d.length then M.throw ⟨o, .length len d.length⟩
  else do
    let e' ← addUsize chk o len
    let bs ← slice d o e'
    M.set e'
    pure bs

/-- `impl DeBin for usize` (src/serde_bin.rs:174-194): `m as usize` (line 192) keeps the low 32 bits. -/
def readUsize (chk : Bool) (d : List Byte) : BinM Nat := do
  let o ← M.get
  let e ← addUsize chk o 8
  if o ≤ e ∧ e ≤ d.length then do
    let e' ← addUsize chk o 8
    M.set e'
    pure (leVal ((d.drop o).take (e - o)) % 2 ^ 32)
  else M.throw ⟨o, .length 8 d.length⟩

/-- `Vec::with_capacity(len)` (src/serde_bin.rs:302). -/
def vecCap (env : Env) (t : Ty) (len : Nat) : BinM Unit := fun o =>
  if len * env.memSize t ≤ isizeMax then .ok () o else .panic

/-- `impl DeBin for String` (src/serde_bin.rs:254-281). -/
def deBinStr (chk : Bool) (d : List Byte) : BinM (List Char) := do
  let len ← readUsize chk d
  let o ← M.get
  let e ← addUsize chk o len
  if e > d.length then M.throw ⟨o, .length 1 d.length⟩
  else do
    let e' ← addUsize chk o len
    let bs ← slice d o e'
    match fromUtf8 bs with
    | some s => do
      let e'' ← addUsize chk o len
      M.set e''
      pure s
    | none => M.throw ⟨o, .length len d.length⟩

/-- `impl DeBin for Duration` (src/serde_bin.rs:674-688). -/
def deBinDur (chk : Bool) (d : List Byte) : BinM (Nat × Nat) := do
  let s ← readPrim chk d 8
  let n ← readPrim chk d 4
  if leVal n > 1000000000 then do
    let o ← M.get
    M.throw ⟨o, .range⟩
  else durNew (leVal s) (leVal n)

/-- `DeBin::de_bin` for every type (src/serde_bin.rs; derive/src/serde_bin.rs). -/
def deBin (env : Env) (chk : Bool) (d : List Byte) : Nat → Ty → BinM Val
  | 0, _ => M.oof
  | n + 1, t =>
    match t with
    | .unit => pure .unit                                          -- 493-498
    | .bool => do                                                  -- 225-244
      let bs ← readPrim chk d 1
      pure (.bool (leVal bs != 0))
    | .int .usize => do                                            -- 174-194
      let m ← readUsize chk d
      pure (.int m)
    | .int k => do                                                 -- 130-149, 196-211
      let bs ← readPrim chk d k.bytes
      pure (.int (ofTwos k.signed k.bytes (leVal bs)))
    | .f32 => do                                                   -- 155
      let bs ← readPrim chk d 4
      pure (.f32 (BitVec.ofNat 32 (leVal bs)))
    | .f64 => do                                                   -- 154
      let bs ← readPrim chk d 8
      pure (.f64 (BitVec.ofNat 64 (leVal bs)))
    | .str => do                                                   -- 254-281
      let s ← deBinStr chk d
      pure (.str s)
    | .dur => do                                                   -- 674-688
      let (s, ns) ← deBinDur chk d
      pure (.dur s ns)
    | .time => do                                                  -- 698-706
      let tag ← readPrim chk d 1
      if leVal tag = 1 then do
        let (s, ns) ← deBinDur chk d
        epochPlus s ns
      else pure (.time 0 0)
    | .option t => do                                              -- 407-429
      let tag ← readPrim chk d 1
      if leVal tag = 1 then do
        let v ← deBin env chk d n t
        pure (.some v)
      else pure .none
    | .vec t => do                                                 -- 296-308
      let len ← readUsize chk d
      vecCap env t len
      let vs ← repeatM (deBin env chk d n t) len
      pure (.seq vs)
    | .linked t => do                                              -- 323-335
      let len ← readUsize chk d
      let vs ← repeatM (deBin env chk d n t) len
      pure (.seq vs)
    | .hset t => do                                                -- 351-364
      let len ← readUsize chk d
      hashCap env (env.memSize t) len
      let vs ← insertLoop env .hset (deBin env chk d n t) len []
      pure (.seq vs)
    | .bset t => do                                                -- 379-391
      let len ← readUsize chk d
      let vs ← insertLoop env .bset (deBin env chk d n t) len []
      pure (.seq vs)
    | .array t len => do                                           -- 452-484
      let vs ← repeatM (deBin env chk d n t) len
      pure (.seq vs)
    | .pair a b => do                                              -- 511-519
      let vs ← deTys (deBin env chk d n) [a, b]
      pure (.seq vs)
    | .triple a b c => do                                          -- 534-547
      let vs ← deTys (deBin env chk d n) [a, b, c]
      pure (.seq vs)
    | .quad a b c e => do                                          -- 564-580
      let vs ← deTys (deBin env chk d n) [a, b, c, e]
      pure (.seq vs)
    | .hmap k v => do                                              -- 597-613
      let len ← readUsize chk d
      hashCap env (env.memSize k + env.memSize v) len
      let vs ← insertLoop env .hmap (entryM (deBin env chk d n k) (deBin env chk d n v)) len []
      pure (.seq vs)
    | .bmap k v => do                                              -- 630-645
      let len ← readUsize chk d
      let vs ← insertLoop env .bmap (entryM (deBin env chk d n k) (deBin env chk d n v)) len []
      pure (.seq vs)
    | .box t => do                                                 -- 656-663
      let v ← deBin env chk d n t
      pure (.box v)
    | .named i =>
      match env.defs[i]? with
      | .some (.struct fs _ _) => do                               -- derive: 118-171
        let vs ← deBinFields (deBin env chk d n) true fs
        pure (.struct vs)
      | .some (.tuple ts _) => do                                  -- derive: 173-226
        let vs ← deTys (deBin env chk d n) ts
        pure (.struct vs)
      | .some (.enum vars) => do                                   -- derive: 307-391
        let id ← readPrim chk d 2
        match vars[leVal id]? with
        | .some var => do
          let vs ← deBinShape (deBin env chk d n) var.shape
          pure (.variant (leVal id) vs)
        | .none => M.throw ⟨0, .unknownDiscriminant (leVal id)⟩
      | .none => M.oof   -- no such type: not a program
    | .proxied i =>                                                -- derive: 25-37, 123-132
      match env.proxies[i]? with
      | .some px => do
        let p ← deBin env chk d n px.ty
        let o := px.back p
        pure (.prox o (px.into o))
      | .none => M.oof   -- no such type: not a program

/-- `DeBin::deserialize_bin` (src/serde_bin.rs:37-39). -/
def deserializeBin (env : Env) (chk : Bool) (n : Nat) (t : Ty) (d : List Byte) :
    Out BinErr Nat Val := deBin env chk d n t 0

end NS.W32
