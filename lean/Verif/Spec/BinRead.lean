import Verif.Spec.BinLayout
import Verif.Spec.BinPanic
import Verif.Spec.RonMeans
/-!
# What bytes stand for (specification for C68, C69)

`BinSays env t bs v`: the bytes `bs` are, for a reader of `t`, the value `v`.  More byte sequences
than the serializer writes stand for a value: tags other than `0` and `1`, a billion nanoseconds,
repeated elements of sets and keys of maps.
-/
namespace NS

/-- The bytes stand for the value. -/
inductive BinSays (env : Env) : Ty → List Byte → Val → Prop where
  | unit : BinSays env .unit [] .unit
  | bool {b} : BinSays env .bool [b] (.bool (b ≠ 0))
  /-- Two's complement, least significant byte first. -/
  | int {k bs} {i : Int} : bs.length = k.bytes → k.inRange i → i % 2 ^ (8 * k.bytes) = (littleEndian bs : Int) →
      BinSays env (.int k) bs (.int i)
  | f32 {bs x} : bs.length = 4 → x.toNat = littleEndian bs → BinSays env .f32 bs (.f32 x)
  | f64 {bs x} : bs.length = 8 → x.toNat = littleEndian bs → BinSays env .f64 bs (.f64 x)
  | str {p s} : p.length = 8 → littleEndian p = (stdUtf8 s).length → BinSays env .str (p ++ stdUtf8 s) (.str s)
  /-- One billion nanoseconds count as a second. -/
  | dur {s n} : s.length = 8 → n.length = 4 → littleEndian n ≤ 1000000000 →
      littleEndian s + littleEndian n / 1000000000 ≤ u64Max →
      BinSays env .dur (s ++ n) (.dur (littleEndian s + littleEndian n / 1000000000) (littleEndian n % 1000000000))
  | epoch {b} : b ≠ 1 → BinSays env .time [b] (.time 0 0)
  | time {s n} : s.length = 8 → n.length = 4 → littleEndian n ≤ 1000000000 →
      littleEndian s + littleEndian n / 1000000000 < 2 ^ 63 →
      BinSays env .time (1 :: (s ++ n)) (.time (littleEndian s + littleEndian n / 1000000000 : Nat) (littleEndian n % 1000000000))
  | none {t b} : b ≠ 1 → BinSays env (.option t) [b] .none
  | some {t bs v} : BinSays env t bs v → BinSays env (.option t) (1 :: bs) (.some v)
  /-- A length, then that many elements; the memory for them must be allocatable. -/
  | vec {t p} (ps : List (List Byte × Val)) : p.length = 8 → littleEndian p = ps.length →
      ps.length * env.memSize t ≤ isizeMax → (∀ q ∈ ps, BinSays env t q.1 q.2) →
      BinSays env (.vec t) (p ++ ps.flatMap (·.1)) (.seq (ps.map (·.2)))
  | linked {t p} (ps : List (List Byte × Val)) : p.length = 8 → littleEndian p = ps.length →
      (∀ q ∈ ps, BinSays env t q.1 q.2) →
      BinSays env (.linked t) (p ++ ps.flatMap (·.1)) (.seq (ps.map (·.2)))
  | hset {t p} (ps : List (List Byte × Val)) : p.length = 8 → littleEndian p = ps.length →
      env.hashCapPanics (env.memSize t) ps.length = false → (∀ q ∈ ps, BinSays env t q.1 q.2) →
      BinSays env (.hset t) (p ++ ps.flatMap (·.1)) (.seq (firsts (ps.map (·.2))))
  | bset {t p r} (ps : List (List Byte × Val)) : p.length = 8 → littleEndian p = ps.length →
      (∀ q ∈ ps, BinSays env t q.1 q.2) → SetOf env (ps.map (·.2)) r →
      BinSays env (.bset t) (p ++ ps.flatMap (·.1)) (.seq r)
  | array {t n} (ps : List (List Byte × Val)) : ps.length = n → (∀ q ∈ ps, BinSays env t q.1 q.2) →
      BinSays env (.array t n) (ps.flatMap (·.1)) (.seq (ps.map (·.2)))
  | pair {a b} (ps : List (Ty × List Byte × Val)) : ps.map (·.1) = [a, b] →
      (∀ q ∈ ps, BinSays env q.1 q.2.1 q.2.2) →
      BinSays env (.pair a b) (ps.flatMap (·.2.1)) (.seq (ps.map (·.2.2)))
  | triple {a b c} (ps : List (Ty × List Byte × Val)) : ps.map (·.1) = [a, b, c] →
      (∀ q ∈ ps, BinSays env q.1 q.2.1 q.2.2) →
      BinSays env (.triple a b c) (ps.flatMap (·.2.1)) (.seq (ps.map (·.2.2)))
  | quad {a b c d} (ps : List (Ty × List Byte × Val)) : ps.map (·.1) = [a, b, c, d] →
      (∀ q ∈ ps, BinSays env q.1 q.2.1 q.2.2) →
      BinSays env (.quad a b c d) (ps.flatMap (·.2.1)) (.seq (ps.map (·.2.2)))
  | hmap {k t p r} (ps : List ((List Byte × Val) × (List Byte × Val))) : p.length = 8 → littleEndian p = ps.length →
      env.hashCapPanics (env.memSize k + env.memSize t) ps.length = false →
      (∀ q ∈ ps, BinSays env k q.1.1 q.1.2) → (∀ q ∈ ps, BinSays env t q.2.1 q.2.2) →
      LastWins (ps.map fun q => .entry q.1.2 q.2.2) r → r.map Val.key = firsts (ps.map fun q => q.1.2) →
      BinSays env (.hmap k t) (p ++ ps.flatMap fun q => q.1.1 ++ q.2.1) (.seq r)
  | bmap {k t p r} (ps : List ((List Byte × Val) × (List Byte × Val))) : p.length = 8 → littleEndian p = ps.length →
      (∀ q ∈ ps, BinSays env k q.1.1 q.1.2) → (∀ q ∈ ps, BinSays env t q.2.1 q.2.2) →
      LastWins (ps.map fun q => .entry q.1.2 q.2.2) r → r.Pairwise (fun a b => env.cmp a.key b.key = .lt) →
      BinSays env (.bmap k t) (p ++ ps.flatMap fun q => q.1.1 ++ q.2.1) (.seq r)
  | box {t bs v} : BinSays env t bs v → BinSays env (.box t) bs (.box v)
  /-- Fields in order; one marked `skip` takes no bytes and holds its type's default. -/
  | struct {i cd nul} (ps : List (Field × List Byte × Val)) : env.defs[i]? = some (.struct (ps.map (·.1)) cd nul) →
      (∀ q ∈ ps, q.1.skip = true → q.2 = ([], q.1.tyDefault)) →
      (∀ q ∈ ps, q.1.skip = false → BinSays env q.1.ty q.2.1 q.2.2) →
      BinSays env (.named i) (ps.flatMap (·.2.1)) (.struct (ps.map (·.2.2)))
  | tupleStruct {i tr} (ps : List (Ty × List Byte × Val)) : env.defs[i]? = some (.tuple (ps.map (·.1)) tr) →
      (∀ q ∈ ps, BinSays env q.1 q.2.1 q.2.2) →
      BinSays env (.named i) (ps.flatMap (·.2.1)) (.struct (ps.map (·.2.2)))
  /-- The number of the variant in two bytes, then its fields. -/
  | variant {i vars p var} : env.defs[i]? = some (.enum vars) → p.length = 2 →
      vars[littleEndian p]? = some var → var.shape = .unit → BinSays env (.named i) p (.variant (littleEndian p) [])
  | tupleVariant {i vars p var} (ps : List (Ty × List Byte × Val)) : env.defs[i]? = some (.enum vars) → p.length = 2 →
      vars[littleEndian p]? = some var → var.shape = .tuple (ps.map (·.1)) →
      (∀ q ∈ ps, BinSays env q.1 q.2.1 q.2.2) →
      BinSays env (.named i) (p ++ ps.flatMap (·.2.1)) (.variant (littleEndian p) (ps.map (·.2.2)))
  /-- In a struct variant `skip` has no effect. -/
  | structVariant {i vars p var} (ps : List (Field × List Byte × Val)) : env.defs[i]? = some (.enum vars) → p.length = 2 →
      vars[littleEndian p]? = some var → var.shape = .named (ps.map (·.1)) →
      (∀ q ∈ ps, BinSays env q.1.ty q.2.1 q.2.2) →
      BinSays env (.named i) (p ++ ps.flatMap (·.2.1)) (.variant (littleEndian p) (ps.map (·.2.2)))
  | proxied {i px bs p} : env.proxies[i]? = some px → BinSays env px.ty bs p →
      BinSays env (.proxied i) bs (.prox (px.back p) (px.into (px.back p)))

/-- All types mentioned exist. -/
def BinWf (env : Env) : Ty → Prop
  | .option t | .vec t | .linked t | .hset t | .bset t | .array t _ | .box t => BinWf env t
  | .pair a b | .hmap a b | .bmap a b => BinWf env a ∧ BinWf env b
  | .triple a b c => BinWf env a ∧ BinWf env b ∧ BinWf env c
  | .quad a b c d => BinWf env a ∧ BinWf env b ∧ BinWf env c ∧ BinWf env d
  | .named i => i < env.defs.length
  | .proxied i => i < env.proxies.length
  | _ => True

/-- All definitions are well formed. -/
structure BinProg (env : Env) : Prop where
  defs : ∀ d ∈ env.defs, ∀ t ∈ d.types, BinWf env t
  proxies : ∀ p ∈ env.proxies, BinWf env p.ty

/-- No type contains itself by way of fields of structs, tuples, arrays, boxes and proxies alone: such a
type (`struct T { next: Box<T> }`) has no values and its reader overflows the stack.  Types that contain
themselves under an `Option`, a collection or in a variant of an enum are fine. -/
def Inhabitable (env : Env) : Prop :=
  ∃ rank : Ty → Nat, (∀ t, rank t < rank (.box t)) ∧ (∀ t n, rank t < rank (.array t n)) ∧
    (∀ a b, rank a < rank (.pair a b) ∧ rank b < rank (.pair a b)) ∧
    (∀ a b c, rank a < rank (.triple a b c) ∧ rank b < rank (.triple a b c) ∧ rank c < rank (.triple a b c)) ∧
    (∀ a b c d, rank a < rank (.quad a b c d) ∧ rank b < rank (.quad a b c d) ∧ rank c < rank (.quad a b c d) ∧
      rank d < rank (.quad a b c d)) ∧
    (∀ (i : Nat) fs cd nul, env.defs[i]? = some (.struct fs cd nul) → ∀ f ∈ fs, f.skip = false → rank f.ty < rank (.named i)) ∧
    (∀ (i : Nat) ts tr, env.defs[i]? = some (.tuple ts tr) → ∀ t ∈ ts, rank t < rank (.named i)) ∧
    (∀ (i : Nat) px, env.proxies[i]? = some px → rank px.ty < rank (.proxied i))

end NS
