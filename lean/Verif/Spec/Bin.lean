import Verif.Spec.Basic
import Verif.Model.Bytes
/-!
# Specification vocabulary for the binary format
-/
namespace NS

/-- The bytes `bs` occur in `d` at offset `o`. -/
def At (d : List Byte) (o : Nat) (bs : List Byte) : Prop :=
  ∃ pre post, d = pre ++ bs ++ post ∧ pre.length = o

/-- Values that the binary format represents exactly: instants are not before the epoch and
skipped fields hold `Default::default()`. -/
def BinExact (env : Env) (t : Ty) (v : Val) : Prop :=
  Holds env (fun _ w => ∀ s n, w = .time s n → 0 ≤ s) (fun f => f.tyDefault) false t v

end NS

namespace NS

/-- What the Rust compiler and std guarantee about a program's environment, as far as decoding
arbitrary bytes is concerned: defaults of skipped fields are values of the field's type, the
capacity check of hash tables is monotone, and proxy conversions are stable on the proxy values
they can produce (`back (into (back p)) = back p`). -/
structure SaneEnv (env : Env) : Prop where
  defaults : ∀ (i : Nat) fs cd nn, env.defs[i]? = some (.struct fs cd nn) → ∀ f ∈ fs,
    f.skip = true → HasTy env f.ty f.tyDefault
  cap : ∀ sz n m, m ≤ n → env.hashCapPanics sz n = false → env.hashCapPanics sz m = false
  proxies : ∀ (i : Nat) px, env.proxies[i]? = some px → ∀ p, HasTy env px.ty p →
    BinExact env px.ty p →
    HasTy env px.ty (px.into (px.back p)) ∧ BinExact env px.ty (px.into (px.back p)) ∧
    px.back (px.into (px.back p)) = px.back p

end NS

namespace NS

/-- The component types of a definition. -/
def Def.types : Def → List Ty
  | .struct fs _ _ => fs.map (·.ty)
  | .tuple ts _ => ts
  | .enum vars => vars.flatMap fun v => match v.shape with
    | .unit => []
    | .tuple ts => ts
    | .named fs => fs.map (·.ty)

mutual
/-- `w` is `v` except for the contents of skipped fields (which may be anything in both). -/
def EqUpToSkip (env : Env) : Ty → Val → Val → Prop
  | .option t, .some v, .some w => EqUpToSkip env t v w
  | .vec t, .seq vs, .seq ws => EqUpToSkipAll env t vs ws
  | .linked t, .seq vs, .seq ws => EqUpToSkipAll env t vs ws
  | .hset t, .seq vs, .seq ws => EqUpToSkipAll env t vs ws
  | .bset t, .seq vs, .seq ws => EqUpToSkipAll env t vs ws
  | .array t _, .seq vs, .seq ws => EqUpToSkipAll env t vs ws
  | .pair a b, .seq vs, .seq ws => EqUpToSkipTys env [a, b] vs ws
  | .triple a b c, .seq vs, .seq ws => EqUpToSkipTys env [a, b, c] vs ws
  | .quad a b c d, .seq vs, .seq ws => EqUpToSkipTys env [a, b, c, d] vs ws
  | .hmap k t, .seq vs, .seq ws => EqUpToSkipEntries env k t vs ws
  | .bmap k t, .seq vs, .seq ws => EqUpToSkipEntries env k t vs ws
  | .box t, .box v, .box w => EqUpToSkip env t v w
  | .named i, .struct vs, .struct ws =>
    match env.defs[i]? with
    | .some (.struct fs _ _) => EqUpToSkipFields env true fs vs ws
    | .some (.tuple ts _) => EqUpToSkipTys env ts vs ws
    | _ => vs = ws
  | .named i, .variant j vs, .variant j' ws => j = j' ∧
    match env.defs[i]? with
    | .some (.enum vars) =>
      match vars[j]? with
      | .some ⟨_, _, .tuple ts⟩ => EqUpToSkipTys env ts vs ws
      | .some ⟨_, _, .named fs⟩ => EqUpToSkipFields env false fs vs ws
      | _ => vs = ws
    | _ => vs = ws
  | .proxied i, .prox o p, .prox o' p' =>
    match env.proxies[i]? with
    | .some px => EqUpToSkip env px.ty p p'
    | .none => o = o' ∧ p = p'
  | _, v, w => v = w
termination_by structural _ v => v
/-- Item by item. -/
def EqUpToSkipAll (env : Env) (t : Ty) : List Val → List Val → Prop
  | [], [] => True
  | v :: vs, w :: ws => EqUpToSkip env t v w ∧ EqUpToSkipAll env t vs ws
  | _, _ => False
termination_by structural vs => vs
/-- Entry by entry. -/
def EqUpToSkipEntries (env : Env) (k t : Ty) : List Val → List Val → Prop
  | [], [] => True
  | .entry a b :: vs, .entry a' b' :: ws =>
    EqUpToSkip env k a a' ∧ EqUpToSkip env t b b' ∧ EqUpToSkipEntries env k t vs ws
  | _, _ => False
termination_by structural vs => vs
/-- Component by component. -/
def EqUpToSkipTys (env : Env) : List Ty → List Val → List Val → Prop
  | [], [], [] => True
  | t :: ts, v :: vs, w :: ws => EqUpToSkip env t v w ∧ EqUpToSkipTys env ts vs ws
  | _, _, _ => False
termination_by structural _ vs => vs
/-- Field by field, ignoring skipped ones. -/
def EqUpToSkipFields (env : Env) (useSkip : Bool) : List Field → List Val → List Val → Prop
  | [], [], [] => True
  | f :: fs, v :: vs, w :: ws =>
    ((useSkip = true ∧ f.skip = true) ∨ EqUpToSkip env f.ty v w) ∧
      EqUpToSkipFields env useSkip fs vs ws
  | _, _, _ => False
termination_by structural _ vs => vs
end

mutual
/-- Types all of whose values take the same number `m` of bytes. -/
inductive FixedSize (env : Env) : Ty → Nat → Prop
  | unit : FixedSize env .unit 0
  | bool : FixedSize env .bool 1
  | int (k) : FixedSize env (.int k) k.bytes
  | f32 : FixedSize env .f32 4
  | f64 : FixedSize env .f64 8
  | dur : FixedSize env .dur 12
  | array {t m} (n : Nat) (h : FixedSize env t m) : FixedSize env (.array t n) (n * m)
  | pair {a b m} (h : FixedSizes env [a, b] m) : FixedSize env (.pair a b) m
  | triple {a b c m} (h : FixedSizes env [a, b, c] m) : FixedSize env (.triple a b c) m
  | quad {a b c d m} (h : FixedSizes env [a, b, c, d] m) : FixedSize env (.quad a b c d) m
  | box {t m} (h : FixedSize env t m) : FixedSize env (.box t) m
  | tupleStruct {i ts tr m} (hd : env.defs[i]? = some (.tuple ts tr)) (h : FixedSizes env ts m) :
      FixedSize env (.named i) m
  | struct {i fs cd nn m} (hd : env.defs[i]? = some (.struct fs cd nn))
      (h : FixedSizes env ((fs.filter fun f => !f.skip).map (·.ty)) m) : FixedSize env (.named i) m
  | proxied {i px m} (hd : env.proxies[i]? = some px) (h : FixedSize env px.ty m) :
      FixedSize env (.proxied i) m
/-- Sums of fixed sizes. -/
inductive FixedSizes (env : Env) : List Ty → Nat → Prop
  | nil : FixedSizes env [] 0
  | cons {t m ts k} (h : FixedSize env t m) (hs : FixedSizes env ts k) :
      FixedSizes env (t :: ts) (m + k)
end

end NS
