import Verif.Model.Json
import Verif.Model.Ron
/-!
# Model of `DeJson` and `DeRon` on a target with 32-bit pointers

Two things are different on such a target (wasm32, ARM microcontrollers).  `usize` has 32 bits, but its readers accept every
number up to `u64::MAX` and narrow it with `as usize` (`impl_ser_de_json_unsigned!(usize, u64::MAX)`, src/serde_json.rs:720-724,
763; `impl_ser_de_ron_unsigned!(usize, u64::MAX)`, src/serde_ron.rs:722-727, 766), which keeps the low half.  And a text has at most
`2^31 - 1` bytes, which the model does not need to know.  `SystemTime` is taken to count seconds in an `i64`, as it does on 32-bit Unix
targets.  Everything that does not mention `usize` is shared with `Model/Json.lean` and `Model/Ron.lean`.  The writers are the
same code with the same effect: `NS.serJson`, `NS.serRon`.
-/
namespace NS.W32

/-- Integer impls (src/serde_json.rs:707-742, 763-771; src/serde_ron.rs:709-745, 766-774): as `NS.deInt`, but `val as usize`
keeps 32 bits. -/
def deInt (nx : PM Unit) (k : IntKind) : PM Val :=
  if k = .usize then do
    let v ← u64Range u64Max
    nx
    pure (.int (v % 2 ^ 32 : Nat))
  else NS.deInt nx k

/-- `DeJson::de_json` for every type (src/serde_json.rs; derive/src/serde_json.rs). -/
def deJson (env : Env) (fl : FloatOps) : Nat → Ty → PM Val
  | 0, _ => M.oof
  | n + 1, t =>
    match t with
    | .unit => do                                                  -- 807-816
      expectTok (jNext fl) .null "null"
      pure .unit
    | .bool => do                                                  -- 828-834, 436-441
      let st ← M.get
      match st.tok with
      | .bool b => do
        jNext fl
        pure (.bool b)
      | _ => errToken "boolean"
    | .int k => W32.deInt (jNext fl) k
    | .f32 => deF32 (jNext fl) fl
    | .f64 => deF64 (jNext fl) fl
    | .str => do
      let s ← deStr (jNext fl)
      pure (.str s)
    | .dur => deDur (jNext fl) n
    | .time => do                                                  -- 1375-1383 with 788-799
      let st ← M.get
      if st.tok = .null then do
        jNext fl
        epochAt .none
      else do
        let v ← deDur (jNext fl) n
        epochAt v
    | .option t => do                                              -- 788-799
      let st ← M.get
      if st.tok = .null then do
        jNext fl
        pure .none
      else do
        let v ← deJson env fl n t
        pure (.some v)
    | .vec t => deSeq (jNext fl) n (deJson env fl n t) (fun acc v => acc ++ [v])
    | .linked t => deSeq (jNext fl) n (deJson env fl n t) (fun acc v => acc ++ [v])
    | .hset t => deSeq (jNext fl) n (deJson env fl n t) (collInsert env .hset)
    | .bset t => deSeq (jNext fl) n (deJson env fl n t) (collInsert env .bset)
    | .array t len => do                                           -- 1051-1092
      blockOpen (jNext fl)
      let vs ← repeatM (thenEat (deJson env fl n t) (eatCommaBlock (jNext fl))) len
      blockClose (jNext fl)
      pure (.seq vs)
    | .pair a b =>                                                 -- 1117-1128
      deTuple (blockOpen (jNext fl)) (blockClose (jNext fl)) (eatCommaBlock (jNext fl))
        (deJson env fl n) [a, b]
    | .triple a b c =>                                             -- 1147-1163
      deTuple (blockOpen (jNext fl)) (blockClose (jNext fl)) (eatCommaBlock (jNext fl))
        (deJson env fl n) [a, b, c]
    | .quad a b c d =>                                             -- 1185-1203
      deTuple (blockOpen (jNext fl)) (blockClose (jNext fl)) (eatCommaBlock (jNext fl))
        (deJson env fl n) [a, b, c, d]
    | .hmap k v =>
      deMap (jNext fl) n (deJson env fl n k) (deJson env fl n v) (collInsert env .hmap)
    | .bmap k v =>
      deMap (jNext fl) n (deJson env fl n k) (deJson env fl n v) (collInsert env .bmap)
    | .box t => do                                                 -- 1301-1308
      let v ← deJson env fl n t
      pure (.box v)
    | .named i =>
      match env.defs[i]? with
      | .some (.struct fs cd _) => do                              -- derive: 274-297
        let vs ← deJsonNamed (jNext fl) n (deJson env fl n) cd fs
        pure (.struct vs)
      | .some (.tuple ts tr) => deJsonTupleStruct (jNext fl) (deJson env fl n) ts tr
      | .some (.enum vars) => deJsonEnum (jNext fl) n (deJson env fl n) vars
      | .none => M.oof   -- no such type: not a program
    | .proxied i =>                                                -- derive: 259-272, 182-190
      match env.proxies[i]? with
      | .some px => do
        let p ← deJson env fl n px.ty
        let o := px.back p
        pure (.prox o (px.into o))
      | .none => M.oof   -- no such type: not a program

/-- `DeJson::deserialize_json` (src/serde_json.rs:82-88). -/
def deserializeJson (env : Env) (fl : FloatOps) (n : Nat) (t : Ty) (input : List Char) :
    Out PErr PSt Val :=
  (do jNext fl; deJson env fl n t : PM Val) (initSt jcol input)

/-- `DeRon::de_ron` for every type (src/serde_ron.rs; derive/src/serde_ron.rs). -/
def deRon (env : Env) (fl : FloatOps) : Nat → Ty → PM Val
  | 0, _ => M.oof
  | n + 1, t =>
    match t with
    | .unit => do                                                  -- 1099-1105
      parenOpen (rNext fl)
      parenClose (rNext fl)
      pure .unit
    | .bool => do                                                  -- 816-822, 417-425
      let st ← M.get
      match st.tok with
      | .bool b => do
        rNext fl
        pure (.bool b)
      | .u64 v => do
        rNext fl
        pure (.bool (v != 0))
      | _ => errToken "boolean"
    | .int k => W32.deInt (rNext fl) k
    | .f32 => deF32 (rNext fl) fl
    | .f64 => deF64 (rNext fl) fl
    | .str => do
      let s ← deStr (rNext fl)
      pure (.str s)
    | .dur => deDur (rNext fl) n
    | .time => do                                                  -- 1372-1380 with 791-804
      let st ← M.get
      if atNone st then do
        rNext fl
        epochAt .none
      else do
        let v ← deDur (rNext fl) n
        epochAt v
    | .option t => do                                              -- 791-804
      let st ← M.get
      if atNone st then do
        rNext fl
        pure .none
      else do
        let v ← deRon env fl n t
        pure (.some v)
    | .vec t => deSeq (rNext fl) n (deRon env fl n t) (fun acc v => acc ++ [v])
    | .linked t => deSeq (rNext fl) n (deRon env fl n t) (fun acc v => acc ++ [v])
    | .hset t => deSeq (rNext fl) n (deRon env fl n t) (collInsert env .hset)
    | .bset t => deSeq (rNext fl) n (deRon env fl n t) (collInsert env .bset)
    | .array t len => do                                           -- 1041-1082
      parenOpen (rNext fl)
      let vs ← repeatM (thenEat (deRon env fl n t) (eatCommaParen (rNext fl))) len
      parenClose (rNext fl)
      pure (.seq vs)
    | .pair a b =>                                                 -- 1121-1132
      deTuple (parenOpen (rNext fl)) (parenClose (rNext fl)) (eatCommaParen (rNext fl))
        (deRon env fl n) [a, b]
    | .triple a b c =>                                             -- 1151-1167
      deTuple (parenOpen (rNext fl)) (parenClose (rNext fl)) (eatCommaParen (rNext fl))
        (deRon env fl n) [a, b, c]
    | .quad a b c d =>                                             -- 1189-1207
      deTuple (parenOpen (rNext fl)) (parenClose (rNext fl)) (eatCommaParen (rNext fl))
        (deRon env fl n) [a, b, c, d]
    | .hmap k v =>
      deMap (rNext fl) n (deRon env fl n k) (deRon env fl n v) (collInsert env .hmap)
    | .bmap k v =>
      deMap (rNext fl) n (deRon env fl n k) (deRon env fl n v) (collInsert env .bmap)
    | .box t => do                                                 -- 1298-1305
      let v ← deRon env fl n t
      pure (.box v)
    | .named i =>
      match env.defs[i]? with
      | .some (.struct fs cd _) => do                              -- derive: 261-292
        let vs ← deRonNamed (rNext fl) n (deRon env fl n) cd fs
        pure (.struct vs)
      | .some (.tuple ts _) => do
        let vs ← deRonTys (rNext fl) (deRon env fl n) ts
        pure (.struct vs)
      | .some (.enum vars) => deRonEnum (rNext fl) n (deRon env fl n) vars
      | .none => M.oof   -- no such type: not a program
    | .proxied _ => M.oof
      -- the generated impl (derive: 28-40) calls `deserialize_ron(i)` with a `&mut Chars` and does
      -- not compile, so no program reads a proxied type from RON

/-- `DeRon::deserialize_ron` (src/serde_ron.rs:73-79). -/
def deserializeRon (env : Env) (fl : FloatOps) (n : Nat) (t : Ty) (input : List Char) :
    Out PErr PSt Val :=
  (do rNext fl; deRon env fl n t : PM Val) (initSt rcol input)

end NS.W32
