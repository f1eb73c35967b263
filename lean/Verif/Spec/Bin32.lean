import Verif.Spec.BinRead
import Verif.Model.Bin32
/-!
# What bytes stand for on a 32-bit target, and which values both kinds of targets have (specification for C96)

`W32.BinSays` is `BinSays` (`Spec/BinRead.lean`) with two differences: a `usize` and a length count modulo `2^32`, and an
allocation is at most `2^31 - 1` bytes.
-/
namespace NS.W32

/-- The bytes stand for the value, on a 32-bit target. -/
inductive BinSays (env : Env) : Ty → List Byte → Val → Prop where
  | unit : BinSays env .unit [] .unit
  | bool {b} : BinSays env .bool [b] (.bool (b ≠ 0))
  /-- Two's complement, least significant byte first. -/
  | int {k bs} {i : Int} : k ≠ .usize → bs.length = k.bytes → k.inRange i → i % 2 ^ (8 * k.bytes) = (littleEndian bs : Int) →
      BinSays env (.int k) bs (.int i)
  /-- Only the low half of a `usize` counts. -/
  | usize {bs} : bs.length = 8 → BinSays env (.int .usize) bs (.int (littleEndian bs % 2 ^ 32 : Nat))
  | f32 {bs x} : bs.length = 4 → x.toNat = littleEndian bs → BinSays env .f32 bs (.f32 x)
  | f64 {bs x} : bs.length = 8 → x.toNat = littleEndian bs → BinSays env .f64 bs (.f64 x)
  | str {p s} : p.length = 8 → littleEndian p % 2 ^ 32 = (stdUtf8 s).length → BinSays env .str (p ++ stdUtf8 s) (.str s)
  /-- One billion nanoseconds count as a second. -/
  | dur {s n} : s.length = 8 → n.length = 4 → littleEndian n ≤ 1000000000 →
      littleEndian s + littleEndian n / 1000000000 ≤ u64Max →
      BinSays env .dur (s ++ n) (.dur (littleEndian s + littleEndian n / 1000000000) (littleEndian n % 1000000000))
  | epoch {b} : b ≠ 1 → BinSays env .time [b] (.time 0 0)
  | time {s n} : s.length = 8 → n.length = 4 → littleEndian n ≤ 1000000000 →
      littleEndian s + littleEndian n / 1000000000 < 2 ^ 63 →
      BinSays env .time (1 :: (s ++ n)) (.time (littleEndian s + littleEndian n / 1000000000 : Nat) (littleEndian n % 1000000000))
  | none {t b} : b ≠ 1 → BinSays env (.option t) [b] .none
  | some {t bs v} : BinSays env t bs v → BinSays env (.option t) (1 :: bs) (.some v)
  /-- A length modulo `2^32`, then that many elements; the memory for them must be allocatable. -/
  | vec {t p} (ps : List (List Byte × Val)) : p.length = 8 → littleEndian p % 2 ^ 32 = ps.length →
      ps.length * env.memSize t ≤ isizeMax → (∀ q ∈ ps, BinSays env t q.1 q.2) →
      BinSays env (.vec t) (p ++ ps.flatMap (·.1)) (.seq (ps.map (·.2)))
  | linked {t p} (ps : List (List Byte × Val)) : p.length = 8 → littleEndian p % 2 ^ 32 = ps.length →
      (∀ q ∈ ps, BinSays env t q.1 q.2) →
      BinSays env (.linked t) (p ++ ps.flatMap (·.1)) (.seq (ps.map (·.2)))
  | hset {t p} (ps : List (List Byte × Val)) : p.length = 8 → littleEndian p % 2 ^ 32 = ps.length →
      env.hashCapPanics (env.memSize t) ps.length = false → (∀ q ∈ ps, BinSays env t q.1 q.2) →
      BinSays env (.hset t) (p ++ ps.flatMap (·.1)) (.seq (firsts (ps.map (·.2))))
  | bset {t p r} (ps : List (List Byte × Val)) : p.length = 8 → littleEndian p % 2 ^ 32 = ps.length →
      (∀ q ∈ ps, BinSays env t q.1 q.2) → SetOf env (ps.map (·.2)) r →
      BinSays env (.bset t) (p ++ ps.flatMap (·.1)) (.seq r)
  | array {t n} (ps : List (List Byte × Val)) : ps.length = n → (∀ q ∈ ps, BinSays env t q.1 q.2) →
      BinSays env (.array t n) (ps.flatMap (·.1)) (.seq (ps.map (·.2)))
  | pair {a b} (ps : List (Ty × List Byte × Val)) : ps.map (·.1) = [a, b] →
      (∀ q ∈ ps, BinSays env q.1 q.2.1 q.2.2) →
      BinSays env (.pair a b) (ps.flatMap (·.2.1)) (.seq (ps.map (·.2.2)))
  | triple {a b c} (ps : List (Ty × List Byte × Val)) : ps.map (·.1) = [a, b, c] →
      (∀ q ∈ ps, BinSays env q.1 q.2.1 q.2.2) →
      BinSays env (.triple a b c) (ps.flatMap (·.2.1)) (.seq (ps.map (·.2.2)))
  | quad {a b c d} (ps : List (Ty × List Byte × Val)) : ps.map (·.1) = [a, b, c, d] →
      (∀ q ∈ ps, BinSays env q.1 q.2.1 q.2.2) →
      BinSays env (.quad a b c d) (ps.flatMap (·.2.1)) (.seq (ps.map (·.2.2)))
  | hmap {k t p r} (ps : List ((List Byte × Val) × (List Byte × Val))) : p.length = 8 → littleEndian p % 2 ^ 32 = ps.length →
      env.hashCapPanics (env.memSize k + env.memSize t) ps.length = false →
      (∀ q ∈ ps, BinSays env k q.1.1 q.1.2) → (∀ q ∈ ps, BinSays env t q.2.1 q.2.2) →
      LastWins (ps.map fun q => .entry q.1.2 q.2.2) r → r.map Val.key = firsts (ps.map fun q => q.1.2) →
      BinSays env (.hmap k t) (p ++ ps.flatMap fun q => q.1.1 ++ q.2.1) (.seq r)
  | bmap {k t p r} (ps : List ((List Byte × Val) × (List Byte × Val))) : p.length = 8 → littleEndian p % 2 ^ 32 = ps.length →
      (∀ q ∈ ps, BinSays env k q.1.1 q.1.2) → (∀ q ∈ ps, BinSays env t q.2.1 q.2.2) →
      LastWins (ps.map fun q => .entry q.1.2 q.2.2) r → r.Pairwise (fun a b => env.cmp a.key b.key = .lt) →
      BinSays env (.bmap k t) (p ++ ps.flatMap fun q => q.1.1 ++ q.2.1) (.seq r)
  | box {t bs v} : BinSays env t bs v → BinSays env (.box t) bs (.box v)
  /-- Fields in order; one marked `skip` takes no bytes and holds its type's default. -/
  | struct {i cd nul} (ps : List (Field × List Byte × Val)) : env.defs[i]? = some (.struct (ps.map (·.1)) cd nul) →
      (∀ q ∈ ps, q.1.skip = true → q.2 = ([], q.1.tyDefault)) →
      (∀ q ∈ ps, q.1.skip = false → BinSays env q.1.ty q.2.1 q.2.2) →
      BinSays env (.named i) (ps.flatMap (·.2.1)) (.struct (ps.map (·.2.2)))
  | tupleStruct {i tr} (ps : List (Ty × List Byte × Val)) : env.defs[i]? = some (.tuple (ps.map (·.1)) tr) →
      (∀ q ∈ ps, BinSays env q.1 q.2.1 q.2.2) →
      BinSays env (.named i) (ps.flatMap (·.2.1)) (.struct (ps.map (·.2.2)))
  /-- The number of the variant in two bytes, then its fields. -/
  | variant {i vars p var} : env.defs[i]? = some (.enum vars) → p.length = 2 →
      vars[littleEndian p]? = some var → var.shape = .unit → BinSays env (.named i) p (.variant (littleEndian p) [])
  | tupleVariant {i vars p var} (ps : List (Ty × List Byte × Val)) : env.defs[i]? = some (.enum vars) → p.length = 2 →
      vars[littleEndian p]? = some var → var.shape = .tuple (ps.map (·.1)) →
      (∀ q ∈ ps, BinSays env q.1 q.2.1 q.2.2) →
      BinSays env (.named i) (p ++ ps.flatMap (·.2.1)) (.variant (littleEndian p) (ps.map (·.2.2)))
  /-- In a struct variant `skip` has no effect. -/
  | structVariant {i vars p var} (ps : List (Field × List Byte × Val)) : env.defs[i]? = some (.enum vars) → p.length = 2 →
      vars[littleEndian p]? = some var → var.shape = .named (ps.map (·.1)) →
      (∀ q ∈ ps, BinSays env q.1.ty q.2.1 q.2.2) →
      BinSays env (.named i) (p ++ ps.flatMap (·.2.1)) (.variant (littleEndian p) (ps.map (·.2.2)))
  | proxied {i px bs p} : env.proxies[i]? = some px → BinSays env px.ty bs p →
      BinSays env (.proxied i) bs (.prox (px.back p) (px.into (px.back p)))

/-- What a part of a value must satisfy on a 32-bit target: a `usize` below `2^32`, fewer than `2^32` elements, memory for
the elements of a `Vec`.  (And, for the binary format, no instant before the epoch.) -/
def Fits (env : Env) : Ty → Val → Prop
  | .int .usize, .int i => i < 2 ^ 32
  | .vec t, .seq vs => vs.length < 2 ^ 32 ∧ vs.length * env.memSize t ≤ isizeMax
  | .linked _, .seq vs | .hset _, .seq vs | .bset _, .seq vs | .hmap _ _, .seq vs | .bmap _ _, .seq vs => vs.length < 2 ^ 32
  | .time, .time s _ => 0 ≤ s
  | _, _ => True

/-- A value that a 32-bit target has and the binary format represents exactly: all its parts fit, skipped fields hold
their defaults. -/
def BinExact (env : Env) (t : Ty) (v : Val) : Prop :=
  Holds env (Fits env) (fun f => f.tyDefault) false t v

/-- The same program on another target: the types and the orders of keys are the same, the sizes of values in memory are not. -/
def Retarget (env env' : Env) : Prop :=
  env'.defs = env.defs ∧ env'.proxies = env.proxies ∧ env'.cmp = env.cmp ∧ env'.keyEq = env.keyEq

end NS.W32
