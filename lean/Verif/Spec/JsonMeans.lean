import Verif.Spec.RonMeans
import Verif.Spec.JsonShape
/-!
# What a JSON value means at a type

`JsonMeans env fl t J v`: the JSON value `J` denotes the value `v` of type `t`.  Written as rules, one
or two per kind of type, independently of how the text is read.  (`firsts`, `SetOf`, `LastWins`:
`Verif/Spec/RonMeans.lean`.)
-/
namespace NS

/-- The members of a `Duration`: seconds, and optionally nanoseconds, in either order. -/
def JDurMembers (ms : List (JTree × JTree)) (s n : Nat) : Prop :=
  let secs := (JTree.str ['s', 'e', 'c', 's'], JTree.num (.nat s))
  let nanos := (JTree.str ['n', 'a', 'n', 'o', 's'], JTree.num (.nat n))
  ms = [secs, nanos] ∨ ms = [nanos, secs] ∨ (ms = [secs] ∧ n = 0)

/-- An object member: its key, its JSON value (a tree, or just its lexemes) and the value that is read (of no
matter for a member that belongs to no field). -/
abbrev Member (α : Type) := List Char × α × Val
/-- A member with the tree of its value. -/
abbrev JMember := Member JTree

/-- The type at which a member for the field `f` is read: that of the field, but `T` for a field
`Option<T>` with a `proxy` attribute. -/
def Field.readTy (f : Field) : Ty :=
  match f.optProxy, f.ty with
  | true, .option t => t
  | _, t => t

/-- The value of the field `f` when `v` has been read for it. -/
def Field.wrap (f : Field) (v : Val) : Val :=
  match f.optProxy, f.ty with
  | true, .option _ => .some v
  | _, _ => v

/-- `w` is the value of the field `f`: that of the last member with its name, without such a member
the default; a skipped field always has the default. -/
def JFieldGets {α : Type} (cd : Bool) (ps : List (Member α)) (f : Field) (w : Val) : Prop :=
  if f.skip = true then w = f.absentValue
  else (∃ a p b, ps = a ++ p :: b ∧ p.1 = f.jsonName ∧ (∀ q ∈ b, q.1 ≠ f.jsonName) ∧ w = f.wrap p.2.2) ∨
    ((∀ q ∈ ps, q.1 ≠ f.jsonName) ∧ f.mayBeAbsent cd ∧ w = f.absentValue)

/-- The fields `vs` that the members `ps` supply.  (Without fields there must be no members.) -/
def JFieldsGet {α : Type} (cd : Bool) (fs : List Field) (ps : List (Member α)) (vs : List Val) : Prop :=
  (fs = [] → ps = []) ∧ vs.length = fs.length ∧
    ∀ (i : Nat) f w, fs[i]? = some f → vs[i]? = some w → JFieldGets cd ps f w

/-- Names are distinct throughout the program. -/
structure DistinctProg (env : Env) : Prop where
  fields : ∀ (i : Nat) fs cd nul, env.defs[i]? = some (.struct fs cd nul) → DistinctNames fs
  variants : ∀ (i : Nat) vars, env.defs[i]? = some (.enum vars) → DistinctVariants vars
  varFields : ∀ (i : Nat) vars, env.defs[i]? = some (.enum vars) → ∀ v ∈ vars, ∀ fs, v.shape = .named fs → DistinctNames fs

/-- The JSON value denotes the value. -/
inductive JsonMeans (env : Env) (fl : FloatOps) : Ty → JTree → Val → Prop where
  | unit : JsonMeans env fl .unit .null .unit
  | bool {b} : JsonMeans env fl .bool (.bool b) (.bool b)
  | int {k t i} : k.textual = true → t.intVal = some i → k.inRange i → (k.signed = false → ∃ n, t = .nat n) →
      JsonMeans env fl (.int k) (.num t) (.int i)
  /-- The wrapped integers of C19. -/
  | intWrap {k i} {n : Nat} : k.textual = true → k.signed = true → 2 ^ 63 ≤ n → n < 2 ^ 64 → k.inRange i →
      i % 2 ^ (8 * k.bytes) = (n : Int) % 2 ^ (8 * k.bytes) → JsonMeans env fl (.int k) (.num (.nat n)) (.int i)
  | f32 {t} : JsonMeans env fl .f32 (.num t) (.f32 (fl.to32 (t.asF64 fl)))
  | f64 {t} : JsonMeans env fl .f64 (.num t) (.f64 (t.asF64 fl))
  | str {s} : JsonMeans env fl .str (.str s) (.str s)
  /-- One billion nanoseconds count as a second. -/
  | dur {ms tr s n} : JDurMembers ms s n → n ≤ 1000000000 → s + n / 1000000000 ≤ u64Max →
      JsonMeans env fl .dur (.obj ms tr) (.dur (s + n / 1000000000) (n % 1000000000))
  | epoch : JsonMeans env fl .time .null (.time 0 0)
  | time {ms tr s n} : JDurMembers ms s n → n ≤ 1000000000 → s + n / 1000000000 < 2 ^ 63 →
      JsonMeans env fl .time (.obj ms tr) (.time (s + n / 1000000000) (n % 1000000000))
  | none {t} : JsonMeans env fl (.option t) .null .none
  | some {t J v} : J ≠ .null → JsonMeans env fl t J v → JsonMeans env fl (.option t) J (.some v)
  | vec {t tr} (ps : List (JTree × Val)) : (∀ p ∈ ps, JsonMeans env fl t p.1 p.2) →
      JsonMeans env fl (.vec t) (.arr (ps.map (·.1)) tr) (.seq (ps.map (·.2)))
  | linked {t tr} (ps : List (JTree × Val)) : (∀ p ∈ ps, JsonMeans env fl t p.1 p.2) →
      JsonMeans env fl (.linked t) (.arr (ps.map (·.1)) tr) (.seq (ps.map (·.2)))
  | hset {t tr} (ps : List (JTree × Val)) : (∀ p ∈ ps, JsonMeans env fl t p.1 p.2) →
      JsonMeans env fl (.hset t) (.arr (ps.map (·.1)) tr) (.seq (firsts (ps.map (·.2))))
  | bset {t tr r} (ps : List (JTree × Val)) : (∀ p ∈ ps, JsonMeans env fl t p.1 p.2) →
      SetOf env (ps.map (·.2)) r → JsonMeans env fl (.bset t) (.arr (ps.map (·.1)) tr) (.seq r)
  | array {t n tr} (ps : List (JTree × Val)) : ps.length = n → (∀ p ∈ ps, JsonMeans env fl t p.1 p.2) →
      JsonMeans env fl (.array t n) (.arr (ps.map (·.1)) tr) (.seq (ps.map (·.2)))
  | pair {a b tr} (ps : List (Ty × JTree × Val)) : ps.map (·.1) = [a, b] → (∀ p ∈ ps, JsonMeans env fl p.1 p.2.1 p.2.2) →
      JsonMeans env fl (.pair a b) (.arr (ps.map (·.2.1)) tr) (.seq (ps.map (·.2.2)))
  | triple {a b c tr} (ps : List (Ty × JTree × Val)) : ps.map (·.1) = [a, b, c] →
      (∀ p ∈ ps, JsonMeans env fl p.1 p.2.1 p.2.2) →
      JsonMeans env fl (.triple a b c) (.arr (ps.map (·.2.1)) tr) (.seq (ps.map (·.2.2)))
  | quad {a b c d tr} (ps : List (Ty × JTree × Val)) : ps.map (·.1) = [a, b, c, d] →
      (∀ p ∈ ps, JsonMeans env fl p.1 p.2.1 p.2.2) →
      JsonMeans env fl (.quad a b c d) (.arr (ps.map (·.2.1)) tr) (.seq (ps.map (·.2.2)))
  | hmap {k t tr r} (ps : List ((JTree × Val) × (JTree × Val))) :
      (∀ p ∈ ps, JsonMeans env fl k p.1.1 p.1.2) → (∀ p ∈ ps, JsonMeans env fl t p.2.1 p.2.2) →
      LastWins (ps.map fun p => .entry p.1.2 p.2.2) r → r.map Val.key = firsts (ps.map fun p => p.1.2) →
      JsonMeans env fl (.hmap k t) (.obj (ps.map fun p => (p.1.1, p.2.1)) tr) (.seq r)
  | bmap {k t tr r} (ps : List ((JTree × Val) × (JTree × Val))) :
      (∀ p ∈ ps, JsonMeans env fl k p.1.1 p.1.2) → (∀ p ∈ ps, JsonMeans env fl t p.2.1 p.2.2) →
      LastWins (ps.map fun p => .entry p.1.2 p.2.2) r → r.Pairwise (fun a b => env.cmp a.key b.key = .lt) →
      JsonMeans env fl (.bmap k t) (.obj (ps.map fun p => (p.1.1, p.2.1)) tr) (.seq r)
  | box {t J v} : JsonMeans env fl t J v → JsonMeans env fl (.box t) J (.box v)
  | struct {i fs cd nul vs tr} (ps : List JMember) : env.defs[i]? = some (.struct fs cd nul) →
      JFieldsGet cd fs ps vs →
      (∀ p ∈ ps, ∀ f ∈ fs, f.skip = false → f.jsonName = p.1 → JsonMeans env fl f.readTy p.2.1 p.2.2) →
      JsonMeans env fl (.named i) (.obj (ps.map fun p => (.str p.1, p.2.1)) tr) (.struct vs)
  | noFields {i trans tr} : env.defs[i]? = some (.tuple [] trans) → JsonMeans env fl (.named i) (.obj [] tr) (.struct [])
  | transparent {i t J v} : env.defs[i]? = some (.tuple [t] true) → JsonMeans env fl t J v →
      JsonMeans env fl (.named i) J (.struct [v])
  /-- A tuple struct with one field: an array of one item, without trailing comma. -/
  | newtype {i t J v} : env.defs[i]? = some (.tuple [t] false) → JsonMeans env fl t J v →
      JsonMeans env fl (.named i) (.arr [J] false) (.struct [v])
  | tupleStruct {i trans tr} (ps : List (Ty × JTree × Val)) : env.defs[i]? = some (.tuple (ps.map (·.1)) trans) →
      2 ≤ ps.length → (∀ p ∈ ps, JsonMeans env fl p.1 p.2.1 p.2.2) →
      JsonMeans env fl (.named i) (.arr (ps.map (·.2.1)) tr) (.struct (ps.map (·.2.2)))
  | variant {i vars j var} : env.defs[i]? = some (.enum vars) → vars[j]? = some var → var.shape = .unit →
      JsonMeans env fl (.named i) (.str var.jsonName) (.variant j [])
  | tupleVariant {i vars j var tr} (ps : List (Ty × JTree × Val)) : env.defs[i]? = some (.enum vars) →
      vars[j]? = some var → var.shape = .tuple (ps.map (·.1)) →
      (∀ p ∈ ps, JsonMeans env fl p.1 p.2.1 p.2.2) →
      JsonMeans env fl (.named i) (.obj [(.str var.jsonName, .arr (ps.map (·.2.1)) tr)] false) (.variant j (ps.map (·.2.2)))
  | structVariant {i vars j var fs vs tr} (ps : List JMember) : env.defs[i]? = some (.enum vars) →
      vars[j]? = some var → var.shape = .named fs → JFieldsGet false fs ps vs →
      (∀ p ∈ ps, ∀ f ∈ fs, f.skip = false → f.jsonName = p.1 → JsonMeans env fl f.readTy p.2.1 p.2.2) →
      JsonMeans env fl (.named i) (.obj [(.str var.jsonName, .obj (ps.map fun p => (.str p.1, p.2.1)) tr)] false) (.variant j vs)
  | proxied {i px J p} : env.proxies[i]? = some px → JsonMeans env fl px.ty J p →
      JsonMeans env fl (.proxied i) J (.prox (px.back p) (px.into (px.back p)))

end NS
