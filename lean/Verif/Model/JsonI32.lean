import Verif.Model.Json
/-!
# `whole_field` with its real counter

`whole_field` (src/serde_json.rs:283-316) counts open brackets in an `i32` (the literal `0` at line 295 has no other type),
which `Model/Json.lean` takes to be unbounded.  Here the counter is an `i32`: adding and subtracting panics on overflow in a
build with overflow checks and wraps in one without.  The readers that use it, directly or not, are repeated from
`Model/Json.lean` with nothing else changed.
-/
namespace NS.I32

/-- `a + d` on an `i32`. -/
def add (chk : Bool) (a d : Int) : PM Int :=
  if -(2 ^ 31) ≤ a + d ∧ a + d < 2 ^ 31 then pure (a + d)
  else if chk then M.panic
  else pure ((a + d + 2 ^ 31) % 2 ^ 32 - 2 ^ 31)

/-- The bracket counting loop of `whole_field` (src/serde_json.rs:297-311). -/
def wholeLoop (chk : Bool) (nx : PM Unit) : Nat → Int → PM Unit
  | 0, _ => M.oof
  | n + 1, open_ => do
    let st ← M.get
    let a ← if st.tok = .blockOpen ∨ st.tok = .curlyOpen then add chk open_ 1 else pure open_
    let b ← if st.tok = .blockClose ∨ st.tok = .curlyClose then add chk a (-1) else pure a
    nx
    if b = 0 then pure () else wholeLoop chk nx n b

/-- `whole_field` (src/serde_json.rs:283-316). -/
def wholeField (chk : Bool) (nx : PM Unit) (n : Nat) : PM Unit := do
  let st ← M.get
  match st.tok with
  | .f64 _ | .i64 _ | .str | .u64 _ | .bool _ | .null => nx
  | .blockOpen | .curlyOpen => wholeLoop chk nx n 0
  | _ => M.panic      -- unimplemented!

/-- The value of the member `key` (derive/src/serde_json.rs:230-244): known keys are read, others
skipped; a struct without fields has no `match` at all. -/
def jMemberValue (chk : Bool) (nx : PM Unit) (n : Nat) (de : Ty → PM Val) (fs : List Field)
    (acc : List (Option Val)) (key : List Char) : PM (List (Option Val)) :=
  if fs.isEmpty then pure acc
  else
    match findField fs key with
    | some i => do
      nextColon nx
      let v ← deField de (fs.getD i { name := [], ty := .unit })
      pure (acc.set i (some v))
    | none => do
      nextColon nx
      wholeField chk nx n
      pure acc

/-- One member (derive/src/serde_json.rs:228-247). -/
def jMember (chk : Bool) (nx : PM Unit) (n : Nat) (de : Ty → PM Val) (fs : List Field)
    (acc : List (Option Val)) : PM (List (Option Val)) := do
  let st ← M.get
  let acc' ← jMemberValue chk nx n de fs acc st.strbuf
  eatCommaCurly nx
  pure acc'

/-- `derive_de_json_named` (derive/src/serde_json.rs:132-257). -/
def deJsonNamed (chk : Bool) (nx : PM Unit) (n : Nat) (de : Ty → PM Val) (cd : Bool) (fs : List Field) :
    PM (List Val) := do
  curlyOpen nx
  let acc ← whileIs .str (jMember chk nx n de fs) n (fs.map fun _ => none)
  curlyClose nx
  unwrapFields cd fs acc

/-- Contents of a non-unit variant (derive/src/serde_json.rs:464-495). -/
def deJsonShape (chk : Bool) (nx : PM Unit) (n : Nat) (de : Ty → PM Val) : Shape → PM (List Val)
  | .unit => pure []
  | .tuple ts => do
    blockOpen nx
    let vs ← deTysEat de (eatCommaBlock nx) ts
    blockClose nx
    pure vs
  | .named fs => deJsonNamed chk nx n de false fs

/-- `derive_de_json_enum` (derive/src/serde_json.rs:440-552). -/
def deJsonEnum (chk : Bool) (nx : PM Unit) (n : Nat) (de : Ty → PM Val) (vars : List Variant) : PM Val := do
  let st ← M.get
  if st.tok = .curlyOpen ∧ vars.any (fun v => !v.isUnit) then do
    curlyOpen nx
    expectTok nx .str "String"
    colon nx
    let st ← M.get
    match findVariant vars false st.strbuf with
    | some j => do
      let vs ← deJsonShape chk nx n de (vars.getD j { name := [], shape := .unit }).shape
      curlyClose nx
      pure (.variant j vs)
    | none => errEnum st.strbuf
  else if st.tok = .str ∧ vars.any (fun v => v.isUnit) then do
    expectTok nx .str "String"
    let st ← M.get
    match findVariant vars true st.strbuf with
    | some j => pure (.variant j [])
    | none => errEnum st.strbuf
  else errToken "String or {"

/-- `DeJson::de_json` for every type. -/
def deJson (env : Env) (fl : FloatOps) (chk : Bool) : Nat → Ty → PM Val
  | 0, _ => M.oof
  | n + 1, t =>
    match t with
    | .unit => do                                                  -- 807-816
      expectTok (jNext fl) .null "null"
      pure .unit
    | .bool => do                                                  -- 828-834, 436-441
      let st ← M.get
      match st.tok with
      | .bool b => do
        jNext fl
        pure (.bool b)
      | _ => errToken "boolean"
    | .int k => deInt (jNext fl) k
    | .f32 => deF32 (jNext fl) fl
    | .f64 => deF64 (jNext fl) fl
    | .str => do
      let s ← deStr (jNext fl)
      pure (.str s)
    | .dur => deDur (jNext fl) n
    | .time => do                                                  -- 1375-1383 with 788-799
      let st ← M.get
      if st.tok = .null then do
        jNext fl
        epochAt .none
      else do
        let v ← deDur (jNext fl) n
        epochAt v
    | .option t => do                                              -- 788-799
      let st ← M.get
      if st.tok = .null then do
        jNext fl
        pure .none
      else do
        let v ← deJson env fl chk n t
        pure (.some v)
    | .vec t => deSeq (jNext fl) n (deJson env fl chk n t) (fun acc v => acc ++ [v])
    | .linked t => deSeq (jNext fl) n (deJson env fl chk n t) (fun acc v => acc ++ [v])
    | .hset t => deSeq (jNext fl) n (deJson env fl chk n t) (collInsert env .hset)
    | .bset t => deSeq (jNext fl) n (deJson env fl chk n t) (collInsert env .bset)
    | .array t len => do                                           -- 1051-1092
      blockOpen (jNext fl)
      let vs ← repeatM (thenEat (deJson env fl chk n t) (eatCommaBlock (jNext fl))) len
      blockClose (jNext fl)
      pure (.seq vs)
    | .pair a b =>                                                 -- 1117-1128
      deTuple (blockOpen (jNext fl)) (blockClose (jNext fl)) (eatCommaBlock (jNext fl))
        (deJson env fl chk n) [a, b]
    | .triple a b c =>                                             -- 1147-1163
      deTuple (blockOpen (jNext fl)) (blockClose (jNext fl)) (eatCommaBlock (jNext fl))
        (deJson env fl chk n) [a, b, c]
    | .quad a b c d =>                                             -- 1185-1203
      deTuple (blockOpen (jNext fl)) (blockClose (jNext fl)) (eatCommaBlock (jNext fl))
        (deJson env fl chk n) [a, b, c, d]
    | .hmap k v =>
      deMap (jNext fl) n (deJson env fl chk n k) (deJson env fl chk n v) (collInsert env .hmap)
    | .bmap k v =>
      deMap (jNext fl) n (deJson env fl chk n k) (deJson env fl chk n v) (collInsert env .bmap)
    | .box t => do                                                 -- 1301-1308
      let v ← deJson env fl chk n t
      pure (.box v)
    | .named i =>
      match env.defs[i]? with
      | .some (.struct fs cd _) => do                              -- derive: 274-297
        let vs ← deJsonNamed chk (jNext fl) n (deJson env fl chk n) cd fs
        pure (.struct vs)
      | .some (.tuple ts tr) => deJsonTupleStruct (jNext fl) (deJson env fl chk n) ts tr
      | .some (.enum vars) => deJsonEnum chk (jNext fl) n (deJson env fl chk n) vars
      | .none => M.oof   -- no such type: not a program
    | .proxied i =>                                                -- derive: 259-272, 182-190
      match env.proxies[i]? with
      | .some px => do
        let p ← deJson env fl chk n px.ty
        let o := px.back p
        pure (.prox o (px.into o))
      | .none => M.oof   -- no such type: not a program

/-- `DeJson::deserialize_json` (src/serde_json.rs:82-88). -/
def deserializeJson (env : Env) (fl : FloatOps) (chk : Bool) (n : Nat) (t : Ty) (input : List Char) :
    Out PErr PSt Val :=
  (do jNext fl; deJson env fl chk n t : PM Val) (initSt jcol input)

end NS.I32
