import Verif.Spec.RonDoc
import Verif.Spec.JsonObject
import Verif.Spec.Basic
/-!
# What a RON value means at a type

`RonMeans env fl t x v`: the RON value `x` denotes the value `v` of type `t`.  Written as rules, one
per kind of type, independently of how the text is read.
-/
namespace NS

/-- A word that is an identifier. -/
def NotBool (w : List Char) : Prop := w ≠ ['t', 'r', 'u', 'e'] ∧ w ≠ ['f', 'a', 'l', 's', 'e']

/-- The value of an integer literal. -/
def Num.intVal : Num → Option Int
  | .nat n => some n
  | .neg i => some i
  | .float _ => none

/-- The `f64` nearest to a number. -/
def Num.asF64 (fl : FloatOps) : Num → BitVec 64
  | .nat n => fl.ofU64 n
  | .neg i => fl.ofI64 i
  | .float x => x

/-- The members of a `Duration`: seconds, and optionally nanoseconds, in either order. -/
def DurMembers (ms : List (RTree × RTree)) (s n : Nat) : Prop :=
  let secs := (RTree.str ['s', 'e', 'c', 's'], RTree.num (.nat s))
  let nanos := (RTree.str ['n', 'a', 'n', 'o', 's'], RTree.num (.nat n))
  ms = [secs, nanos] ∨ ms = [nanos, secs] ∨ (ms = [secs] ∧ n = 0)

/-- A struct member: its name, its RON value and the value that is read. -/
abbrev RMember := List Char × RTree × Val

/-- The lexemes of members `name: value,`, each followed by a comma. -/
def memberLexemes (ps : List RMember) : List Lexeme :=
  ps.flatMap fun p => .word p.1 :: .punct .colon :: (p.2.1.lexemes ++ [.punct .comma])

/-- All members belong to fields. -/
def KnownMembers (fs : List Field) (ps : List RMember) : Prop :=
  ∀ p ∈ ps, NotBool p.1 ∧ ∃ f ∈ fs, f.skip = false ∧ f.jsonName = p.1

/-- `w` is the value of the field `f`: that of the last member with its name, without such a member
the default; a skipped field always has the default. -/
def FieldGets (cd : Bool) (ps : List RMember) (f : Field) (w : Val) : Prop :=
  if f.skip = true then w = f.absentValue
  else (∃ a p b, ps = a ++ p :: b ∧ p.1 = f.jsonName ∧ (∀ q ∈ b, q.1 ≠ f.jsonName) ∧ w = p.2.2) ∨
    ((∀ q ∈ ps, q.1 ≠ f.jsonName) ∧ f.mayBeAbsent cd ∧ w = f.absentValue)

/-- The fields `vs` that the members `ps` supply. -/
def FieldsGet (cd : Bool) (fs : List Field) (ps : List RMember) (vs : List Val) : Prop :=
  DistinctNames fs ∧ KnownMembers fs ps ∧ vs.length = fs.length ∧
    ∀ (i : Nat) f w, fs[i]? = some f → vs[i]? = some w → FieldGets cd ps f w

/-- `var` is the first variant called `w`, at position `j`. -/
def VariantCalled (vars : List Variant) (w : List Char) (j : Nat) (var : Variant) : Prop :=
  vars[j]? = some var ∧ var.name = w ∧ NotBool w ∧ ∀ i < j, ∀ u, vars[i]? = some u → u.name ≠ w

/-- The tree does not start with the word `None`. -/
def NotNone : RTree → Prop
  | .word w => w ≠ ['N', 'o', 'n', 'e']
  | .ctor w _ => w ≠ ['N', 'o', 'n', 'e']
  | _ => True

/-- The different values among `vs`, in the order in which they first occur. -/
noncomputable def firsts : List Val → List Val
  | [] => []
  | x :: vs => x :: (firsts vs).filter fun y => open Classical in decide (y ≠ x)

/-- `r` are the elements of the `BTreeSet` with the elements `vs`. -/
def SetOf (env : Env) (vs r : List Val) : Prop :=
  r.Pairwise (fun a b => env.cmp a b = .lt) ∧ ∀ x, x ∈ r ↔ x ∈ vs

/-- `r` are entries, and each key has the value of the last entry of `es` with that key. -/
def LastWins (es r : List Val) : Prop :=
  (∀ e ∈ r, ∃ k v, e = .entry k v) ∧ ∀ k, mapGet k r = lastVal k es

/-- The RON value denotes the value. -/
inductive RonMeans (env : Env) (fl : FloatOps) : Ty → RTree → Val → Prop where
  | unit {tr} : RonMeans env fl .unit (.tuple [] tr) .unit
  | true : RonMeans env fl .bool (.word ['t', 'r', 'u', 'e']) (.bool true)
  | false : RonMeans env fl .bool (.word ['f', 'a', 'l', 's', 'e']) (.bool false)
  | boolNum {n} : RonMeans env fl .bool (.num (.nat n)) (.bool (n != 0))
  | int {k t i} : k.textual = true → t.intVal = some i → k.inRange i → (k.signed = false → ∃ n, t = .nat n) →
      RonMeans env fl (.int k) (.num t) (.int i)
  /-- The wrapped integers of C47. -/
  | intWrap {k i} {n : Nat} : k.textual = true → k.signed = true → 2 ^ 63 ≤ n → n < 2 ^ 64 → k.inRange i →
      i % 2 ^ (8 * k.bytes) = (n : Int) % 2 ^ (8 * k.bytes) → RonMeans env fl (.int k) (.num (.nat n)) (.int i)
  | f32 {t} : RonMeans env fl .f32 (.num t) (.f32 (fl.to32 (t.asF64 fl)))
  | f64 {t} : RonMeans env fl .f64 (.num t) (.f64 (t.asF64 fl))
  | str {s} : RonMeans env fl .str (.str s) (.str s)
  /-- One billion nanoseconds count as a second. -/
  | dur {ms tr s n} : DurMembers ms s n → n ≤ 1000000000 → s + n / 1000000000 ≤ u64Max →
      RonMeans env fl .dur (.map ms tr) (.dur (s + n / 1000000000) (n % 1000000000))
  | epoch : RonMeans env fl .time (.word ['N', 'o', 'n', 'e']) (.time 0 0)
  | time {ms tr s n} : DurMembers ms s n → n ≤ 1000000000 → s + n / 1000000000 < 2 ^ 63 →
      RonMeans env fl .time (.map ms tr) (.time (s + n / 1000000000) (n % 1000000000))
  | none {t} : RonMeans env fl (.option t) (.word ['N', 'o', 'n', 'e']) .none
  | some {t x v} : NotNone x → RonMeans env fl t x v → RonMeans env fl (.option t) x (.some v)
  | vec {t tr} (ps : List (RTree × Val)) : (∀ p ∈ ps, RonMeans env fl t p.1 p.2) →
      RonMeans env fl (.vec t) (.list (ps.map (·.1)) tr) (.seq (ps.map (·.2)))
  | linked {t tr} (ps : List (RTree × Val)) : (∀ p ∈ ps, RonMeans env fl t p.1 p.2) →
      RonMeans env fl (.linked t) (.list (ps.map (·.1)) tr) (.seq (ps.map (·.2)))
  | hset {t tr} (ps : List (RTree × Val)) : (∀ p ∈ ps, RonMeans env fl t p.1 p.2) →
      RonMeans env fl (.hset t) (.list (ps.map (·.1)) tr) (.seq (firsts (ps.map (·.2))))
  | bset {t tr r} (ps : List (RTree × Val)) : (∀ p ∈ ps, RonMeans env fl t p.1 p.2) →
      SetOf env (ps.map (·.2)) r → RonMeans env fl (.bset t) (.list (ps.map (·.1)) tr) (.seq r)
  | array {t n tr} (ps : List (RTree × Val)) : ps.length = n → (∀ p ∈ ps, RonMeans env fl t p.1 p.2) →
      RonMeans env fl (.array t n) (.tuple (ps.map (·.1)) tr) (.seq (ps.map (·.2)))
  | pair {a b tr} (ps : List (Ty × RTree × Val)) : ps.map (·.1) = [a, b] → (∀ p ∈ ps, RonMeans env fl p.1 p.2.1 p.2.2) →
      RonMeans env fl (.pair a b) (.tuple (ps.map (·.2.1)) tr) (.seq (ps.map (·.2.2)))
  | triple {a b c tr} (ps : List (Ty × RTree × Val)) : ps.map (·.1) = [a, b, c] →
      (∀ p ∈ ps, RonMeans env fl p.1 p.2.1 p.2.2) →
      RonMeans env fl (.triple a b c) (.tuple (ps.map (·.2.1)) tr) (.seq (ps.map (·.2.2)))
  | quad {a b c d tr} (ps : List (Ty × RTree × Val)) : ps.map (·.1) = [a, b, c, d] →
      (∀ p ∈ ps, RonMeans env fl p.1 p.2.1 p.2.2) →
      RonMeans env fl (.quad a b c d) (.tuple (ps.map (·.2.1)) tr) (.seq (ps.map (·.2.2)))
  | hmap {k t tr r} (ps : List ((RTree × Val) × (RTree × Val))) :
      (∀ p ∈ ps, RonMeans env fl k p.1.1 p.1.2) → (∀ p ∈ ps, RonMeans env fl t p.2.1 p.2.2) →
      LastWins (ps.map fun p => .entry p.1.2 p.2.2) r → r.map Val.key = firsts (ps.map fun p => p.1.2) →
      RonMeans env fl (.hmap k t) (.map (ps.map fun p => (p.1.1, p.2.1)) tr) (.seq r)
  | bmap {k t tr r} (ps : List ((RTree × Val) × (RTree × Val))) :
      (∀ p ∈ ps, RonMeans env fl k p.1.1 p.1.2) → (∀ p ∈ ps, RonMeans env fl t p.2.1 p.2.2) →
      LastWins (ps.map fun p => .entry p.1.2 p.2.2) r → r.Pairwise (fun a b => env.cmp a.key b.key = .lt) →
      RonMeans env fl (.bmap k t) (.map (ps.map fun p => (p.1.1, p.2.1)) tr) (.seq r)
  | box {t x v} : RonMeans env fl t x v → RonMeans env fl (.box t) x (.box v)
  | struct {i fs cd nul vs tr} (ps : List RMember) : env.defs[i]? = some (.struct fs cd nul) →
      FieldsGet cd fs ps vs →
      (∀ p ∈ ps, ∀ f ∈ fs, f.skip = false → f.jsonName = p.1 → RonMeans env fl f.ty p.2.1 p.2.2) →
      RonMeans env fl (.named i) (.fields (ps.map fun p => (p.1, p.2.1)) tr) (.struct vs)
  | tupleStruct {i trans tr} (ps : List (Ty × RTree × Val)) : env.defs[i]? = some (.tuple (ps.map (·.1)) trans) →
      (∀ p ∈ ps, RonMeans env fl p.1 p.2.1 p.2.2) →
      RonMeans env fl (.named i) (.tuple (ps.map (·.2.1)) tr) (.struct (ps.map (·.2.2)))
  | variant {i vars w j var} : env.defs[i]? = some (.enum vars) → VariantCalled vars w j var → var.shape = .unit →
      RonMeans env fl (.named i) (.word w) (.variant j [])
  | tupleVariant {i vars w j var tr} (ps : List (Ty × RTree × Val)) : env.defs[i]? = some (.enum vars) →
      VariantCalled vars w j var → var.shape = .tuple (ps.map (·.1)) →
      (∀ p ∈ ps, RonMeans env fl p.1 p.2.1 p.2.2) →
      RonMeans env fl (.named i) (.ctor w (.tuple (ps.map (·.2.1)) tr)) (.variant j (ps.map (·.2.2)))
  | structVariant {i vars w j var fs vs tr} (ps : List RMember) : env.defs[i]? = some (.enum vars) →
      VariantCalled vars w j var → var.shape = .named fs → FieldsGet false fs ps vs →
      (∀ p ∈ ps, ∀ f ∈ fs, f.skip = false → f.jsonName = p.1 → RonMeans env fl f.ty p.2.1 p.2.2) →
      RonMeans env fl (.named i) (.ctor w (.fields (ps.map fun p => (p.1, p.2.1)) tr)) (.variant j vs)

end NS
