import Verif.Spec.JsonDoc
import Verif.Model.Json
/-!
# Reference decoder: what a JSON value means at a type

`decode env fl n t J` is the value of type `t` that the JSON value `J` denotes, independently of
layout, spelling and of the way the text is read.  `Verif/Lemmas/JsonRefine.lean` proves that
`deserialize_json` computes it on every text of `J`.  `n` bounds the nesting of *types* (recursive
definitions).  `none` in place of a tree stands for a position where no value starts (the end of a
too short array).
-/
namespace NS

/-- Outcome of decoding; `oof` means that `n` was too small. -/
inductive Dec (α : Type) where
  | ok (a : α)
  | err
  | panic
  | oof

/-- First failure wins. -/
def Dec.bind {α β : Type} (x : Dec α) (f : α → Dec β) : Dec β :=
  match x with
  | .ok a => f a
  | .err => .err
  | .panic => .panic
  | .oof => .oof

instance : Monad Dec where
  pure := Dec.ok
  bind := Dec.bind

/-- Fold that stops at the first failure. -/
def foldD {α β : Type} (step : β → α → Dec β) : β → List α → Dec β
  | acc, [] => .ok acc
  | acc, x :: xs => (step acc x).bind fun acc' => foldD step acc' xs

/-- An integer at type `k`.  (For signed types a numeral from 2^63 on is first wrapped to `i64`:
src/serde_json.rs:412-415.) -/
def decInt (k : IntKind) (t : Num) : Option Int :=
  match k.signed, t with
  | true, .neg v => if v < k.lo then none else some (castInt k v)
  | true, .nat v => if u64AsI64 v > k.hi then none else some (castInt k (u64AsI64 v))
  | false, .nat v => if v > k.hi.toNat then none else some (castInt k v)
  | _, _ => none

/-- A number at a float type. -/
def decFloat (fl : FloatOps) : Num → BitVec 64
  | .nat v => fl.ofU64 v
  | .neg v => fl.ofI64 v
  | .float x => x

/-- A natural number up to `max`. -/
def decNat (max : Nat) : JTree → Dec Nat
  | .num (.nat v) => if v ≤ max then .ok v else .err
  | _ => .err

/-- One member of a `Duration` object. -/
def decDurMember (acc : Option Nat × Option Nat) (m : JTree × JTree) : Dec (Option Nat × Option Nat) :=
  match m.1 with
  | .str key =>
    if key = ['s', 'e', 'c', 's'] then
      if acc.1.isSome then .err else (decNat u64Max m.2).bind fun v => .ok (some v, acc.2)
    else if key = ['n', 'a', 'n', 'o', 's'] then
      if acc.2.isSome then .err else (decNat (2 ^ 32 - 1) m.2).bind fun v => .ok (acc.1, some v)
    else .err
  | _ => .err

/-- A `Duration`. -/
def decDur : Option JTree → Dec (Nat × Nat)
  | some (.obj ms _) =>
    (foldD decDurMember (none, none) ms).bind fun acc =>
      match acc.1 with
      | none => .err
      | some secs =>
        let nanos := acc.2.getD 0
        if nanos > 1000000000 then .err
        else if nanos < 1000000000 then .ok (secs, nanos)
        else if secs + 1 ≤ u64Max then .ok (secs + 1, 0)
        else .panic
  | _ => .err

/-- A sequence: items are added one after the other. -/
def decSeq (step : List Val → JTree → Dec (List Val)) : Option JTree → Dec Val
  | some (.arr xs _) => (foldD step [] xs).bind fun vs => .ok (.seq vs)
  | _ => .err

/-- A map: entries are added one after the other. -/
def decMap (step : List Val → JTree × JTree → Dec (List Val)) : Option JTree → Dec Val
  | some (.obj ms _) => (foldD step [] ms).bind fun vs => .ok (.seq vs)
  | _ => .err

/-- Exactly as many items as types. -/
def decTys (dec : Ty → Option JTree → Dec Val) : List Ty → List JTree → Dec (List Val)
  | [], [] => .ok []
  | [], _ :: _ => .err
  | t :: _, [] => (dec t none).bind fun _ => .err
  | t :: ts, x :: xs => (dec t (some x)).bind fun v => (decTys dec ts xs).bind fun vs => .ok (v :: vs)

/-- An array with one item for each type. -/
def decTuple (dec : Ty → Option JTree → Dec Val) (ts : List Ty) : Option JTree → Dec (List Val)
  | some (.arr xs _) => decTys dec ts xs
  | _ => .err

/-- The value of a field; an `Option` field with a `proxy` attribute has no `null`. -/
def decField (dec : Ty → Option JTree → Dec Val) (f : Field) (J : JTree) : Dec Val :=
  match f.optProxy, f.ty with
  | true, .option t => (dec t (some J)).bind fun v => .ok (.some v)
  | _, t => dec t (some J)

/-- One member of an object that is read as a derived struct. -/
def decMember (dec : Ty → Option JTree → Dec Val) (fs : List Field) (acc : List (Option Val))
    (m : JTree × JTree) : Dec (List (Option Val)) :=
  match m.1 with
  | .str key =>
    if fs.isEmpty then .err
    else
      match findField fs key with
      | none => .ok acc
      | some i =>
        (decField dec (fs.getD i { name := [], ty := .unit }) m.2).bind fun v =>
          .ok (acc.set i (some v))
  | _ => .err

/-- Field values: what was read, else defaults, else an error. -/
def decUnwrap (cd : Bool) : List Field → List (Option Val) → Dec (List Val)
  | f :: fs, o :: os =>
    match (if f.skip then none else o) with
    | some v => (decUnwrap cd fs os).bind fun vs => .ok (v :: vs)
    | none =>
      if f.skip || f.optSyn || cd || f.dfltAttr.isSome then
        (decUnwrap cd fs os).bind fun vs => .ok (f.dfltAttr.getD f.tyDefault :: vs)
      else .err
  | _, _ => .ok []

/-- A derived struct. -/
def decNamed (dec : Ty → Option JTree → Dec Val) (cd : Bool) (fs : List Field) :
    Option JTree → Dec (List Val)
  | some (.obj ms _) =>
    (foldD (decMember dec fs) (fs.map fun _ => none) ms).bind fun acc => decUnwrap cd fs acc
  | _ => .err

/-- A tuple struct. -/
def decTupleStruct (dec : Ty → Option JTree → Dec Val) (ts : List Ty) (transparent : Bool)
    (o : Option JTree) : Dec Val :=
  match ts, transparent with
  | [], _ =>
    match o with
    | some (.obj [] _) => .ok (.struct [])
    | _ => .err
  | [t], true => (dec t o).bind fun v => .ok (.struct [v])
  | [t], false =>
    match o with
    | some (.arr [] _) => (dec t none).bind fun _ => .err
    | some (.arr (x :: xs) trail) => (dec t (some x)).bind fun v =>
      if xs.isEmpty ∧ trail = false then .ok (.struct [v]) else .err
    | _ => .err
  | ts, _ => (decTuple dec ts o).bind fun vs => .ok (.struct vs)

/-- The contents of a variant. -/
def decShape (dec : Ty → Option JTree → Dec Val) (J : JTree) : Shape → Dec (List Val)
  | .unit => .err
  | .tuple ts => decTuple dec ts (some J)
  | .named fs => decNamed dec false fs (some J)

/-- A derived enum. -/
def decEnum (dec : Ty → Option JTree → Dec Val) (vars : List Variant) : Option JTree → Dec Val
  | some (.str s) =>
    match findVariant vars true s with
    | some j => .ok (.variant j [])
    | none => .err
  | some (.obj ((.str k, J) :: ms) trail) =>
    match J with
    | .arr _ _ | .obj _ _ =>
      match findVariant vars false k with
      | some j => (decShape dec J (vars.getD j { name := [], shape := .unit }).shape).bind fun vs =>
          if ms.isEmpty ∧ trail = false then .ok (.variant j vs) else .err
      | none => .err
    | _ => .err
  | _ => .err

/-- The value of type `t` that `o` denotes. -/
def decode (env : Env) (fl : FloatOps) : Nat → Ty → Option JTree → Dec Val
  | 0, _, _ => .oof
  | n + 1, t, o =>
    match t with
    | .unit =>
      match o with
      | some .null => .ok .unit
      | _ => .err
    | .bool =>
      match o with
      | some (.bool b) => .ok (.bool b)
      | _ => .err
    | .int k =>
      if k.textual = false then .oof
      else
        match o with
        | some (.num t) =>
          match decInt k t with
          | some i => .ok (.int i)
          | none => .err
        | _ => .err
    | .f32 =>
      match o with
      | some (.num t) => .ok (.f32 (fl.to32 (decFloat fl t)))
      | _ => .err
    | .f64 =>
      match o with
      | some (.num t) => .ok (.f64 (decFloat fl t))
      | _ => .err
    | .str =>
      match o with
      | some (.str s) => .ok (.str s)
      | _ => .err
    | .dur => (decDur o).bind fun d => .ok (.dur d.1 d.2)
    | .time =>
      match o with
      | some .null => .ok (.time 0 0)
      | o => (decDur o).bind fun d => if d.1 < 2 ^ 63 then .ok (.time d.1 d.2) else .panic
    | .option t =>
      match o with
      | some .null => .ok .none
      | o => (decode env fl n t o).bind fun v => .ok (.some v)
    | .vec t => decSeq (fun acc x => (decode env fl n t (some x)).bind fun v => .ok (acc ++ [v])) o
    | .linked t => decSeq (fun acc x => (decode env fl n t (some x)).bind fun v => .ok (acc ++ [v])) o
    | .hset t =>
      decSeq (fun acc x => (decode env fl n t (some x)).bind fun v => .ok (collInsert env .hset acc v)) o
    | .bset t =>
      decSeq (fun acc x => (decode env fl n t (some x)).bind fun v => .ok (collInsert env .bset acc v)) o
    | .array t len => (decTuple (decode env fl n) (List.replicate len t) o).bind fun vs => .ok (.seq vs)
    | .pair a b => (decTuple (decode env fl n) [a, b] o).bind fun vs => .ok (.seq vs)
    | .triple a b c => (decTuple (decode env fl n) [a, b, c] o).bind fun vs => .ok (.seq vs)
    | .quad a b c d => (decTuple (decode env fl n) [a, b, c, d] o).bind fun vs => .ok (.seq vs)
    | .hmap k v =>
      decMap (fun acc m => (decode env fl n k (some m.1)).bind fun a =>
        (decode env fl n v (some m.2)).bind fun b => .ok (collInsert env .hmap acc (.entry a b))) o
    | .bmap k v =>
      decMap (fun acc m => (decode env fl n k (some m.1)).bind fun a =>
        (decode env fl n v (some m.2)).bind fun b => .ok (collInsert env .bmap acc (.entry a b))) o
    | .box t => (decode env fl n t o).bind fun v => .ok (.box v)
    | .named i =>
      match env.defs[i]? with
      | .some (.struct fs cd _) => (decNamed (decode env fl n) cd fs o).bind fun vs => .ok (.struct vs)
      | .some (.tuple ts tr) => decTupleStruct (decode env fl n) ts tr o
      | .some (.enum vars) => decEnum (decode env fl n) vars o
      | .none => .oof
    | .proxied i =>
      match env.proxies[i]? with
      | .some px => (decode env fl n px.ty o).bind fun p => .ok (.prox (px.back p) (px.into (px.back p)))
      | .none => .oof

end NS
