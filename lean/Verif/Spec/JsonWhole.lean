import Verif.Spec.JsonMeans
import Verif.Spec.JsonScan
/-!
# What a text stands for, for every text

`JsonMeans` (`Verif/Spec/JsonMeans.lean`) speaks of JSON values.  Here the same rules are stated for
sequences of lexemes, because the reader accepts a little more than JSON values: the value of a member
that belongs to no field is passed over by counting brackets, without looking at their kinds or at what
is between them.
-/
namespace NS

/-- `[ x , … , x ]`, possibly with a trailing comma. -/
def inBlocks (tr : Bool) (xs : List (List Lexeme)) : List Lexeme :=
  .punct .blockOpen :: (commaLexemes tr xs ++ [.punct .blockClose])
/-- `{ x , … , x }`, possibly with a trailing comma. -/
def inCurlies (tr : Bool) (xs : List (List Lexeme)) : List Lexeme :=
  .punct .curlyOpen :: (commaLexemes tr xs ++ [.punct .curlyClose])

/-- What is passed over as the value of an unknown member: a number, word or string, or a bracket and
everything up to the point where, for the first time, as many brackets (of either kind) are closed as
opened. -/
def PassedOver (ls : List Lexeme) : Prop :=
  (∃ l, ls = [l] ∧ l.startsValue = true ∧ l.bracket = 0) ∨
  ∃ b r, ls = b :: r ∧ b.bracket = 1 ∧ depth ls = 0 ∧ ∀ p q, ls = p ++ q → p ≠ [] → q ≠ [] → depth p ≠ 0

/-- The members of a `Duration`. -/
def DurLexemes (ms : List (List Lexeme)) (s n : Nat) : Prop :=
  let secs := [.str ['s', 'e', 'c', 's'], .punct .colon, .num (.nat s)]
  let nanos := [.str ['n', 'a', 'n', 'o', 's'], .punct .colon, .num (.nat n)]
  ms = [secs, nanos] ∨ ms = [nanos, secs] ∨ (ms = [secs] ∧ n = 0)

/-- The lexemes of a member. -/
def Member.lexemes (p : Member (List Lexeme)) : List Lexeme := .str p.1 :: .punct .colon :: p.2.1

/-- The lexemes denote the value. -/
inductive JsonSays (env : Env) (fl : FloatOps) : Ty → List Lexeme → Val → Prop where
  | unit : JsonSays env fl .unit [.word ['n', 'u', 'l', 'l']] .unit
  | true : JsonSays env fl .bool [.word ['t', 'r', 'u', 'e']] (.bool true)
  | false : JsonSays env fl .bool [.word ['f', 'a', 'l', 's', 'e']] (.bool false)
  | int {k t i} : k.textual = true → t.intVal = some i → k.inRange i → (k.signed = false → ∃ n, t = .nat n) →
      JsonSays env fl (.int k) [.num t] (.int i)
  /-- The wrapped integers of C19. -/
  | intWrap {k i} {n : Nat} : k.textual = true → k.signed = true → 2 ^ 63 ≤ n → n < 2 ^ 64 → k.inRange i →
      i % 2 ^ (8 * k.bytes) = (n : Int) % 2 ^ (8 * k.bytes) → JsonSays env fl (.int k) [.num (.nat n)] (.int i)
  | f32 {t} : JsonSays env fl .f32 [.num t] (.f32 (fl.to32 (t.asF64 fl)))
  | f64 {t} : JsonSays env fl .f64 [.num t] (.f64 (t.asF64 fl))
  | str {s} : JsonSays env fl .str [.str s] (.str s)
  /-- One billion nanoseconds count as a second. -/
  | dur {ms tr s n} : DurLexemes ms s n → n ≤ 1000000000 → s + n / 1000000000 ≤ u64Max →
      JsonSays env fl .dur (inCurlies tr ms) (.dur (s + n / 1000000000) (n % 1000000000))
  | epoch : JsonSays env fl .time [.word ['n', 'u', 'l', 'l']] (.time 0 0)
  | time {ms tr s n} : DurLexemes ms s n → n ≤ 1000000000 → s + n / 1000000000 < 2 ^ 63 →
      JsonSays env fl .time (inCurlies tr ms) (.time (s + n / 1000000000) (n % 1000000000))
  | none {t} : JsonSays env fl (.option t) [.word ['n', 'u', 'l', 'l']] .none
  | some {t ls v} : ls.head? ≠ some (.word ['n', 'u', 'l', 'l']) → JsonSays env fl t ls v →
      JsonSays env fl (.option t) ls (.some v)
  | vec {t tr} (ps : List (List Lexeme × Val)) : (∀ p ∈ ps, JsonSays env fl t p.1 p.2) →
      JsonSays env fl (.vec t) (inBlocks tr (ps.map (·.1))) (.seq (ps.map (·.2)))
  | linked {t tr} (ps : List (List Lexeme × Val)) : (∀ p ∈ ps, JsonSays env fl t p.1 p.2) →
      JsonSays env fl (.linked t) (inBlocks tr (ps.map (·.1))) (.seq (ps.map (·.2)))
  | hset {t tr} (ps : List (List Lexeme × Val)) : (∀ p ∈ ps, JsonSays env fl t p.1 p.2) →
      JsonSays env fl (.hset t) (inBlocks tr (ps.map (·.1))) (.seq (firsts (ps.map (·.2))))
  | bset {t tr r} (ps : List (List Lexeme × Val)) : (∀ p ∈ ps, JsonSays env fl t p.1 p.2) →
      SetOf env (ps.map (·.2)) r → JsonSays env fl (.bset t) (inBlocks tr (ps.map (·.1))) (.seq r)
  | array {t n tr} (ps : List (List Lexeme × Val)) : ps.length = n → (∀ p ∈ ps, JsonSays env fl t p.1 p.2) →
      JsonSays env fl (.array t n) (inBlocks tr (ps.map (·.1))) (.seq (ps.map (·.2)))
  | pair {a b tr} (ps : List (Ty × List Lexeme × Val)) : ps.map (·.1) = [a, b] →
      (∀ p ∈ ps, JsonSays env fl p.1 p.2.1 p.2.2) →
      JsonSays env fl (.pair a b) (inBlocks tr (ps.map (·.2.1))) (.seq (ps.map (·.2.2)))
  | triple {a b c tr} (ps : List (Ty × List Lexeme × Val)) : ps.map (·.1) = [a, b, c] →
      (∀ p ∈ ps, JsonSays env fl p.1 p.2.1 p.2.2) →
      JsonSays env fl (.triple a b c) (inBlocks tr (ps.map (·.2.1))) (.seq (ps.map (·.2.2)))
  | quad {a b c d tr} (ps : List (Ty × List Lexeme × Val)) : ps.map (·.1) = [a, b, c, d] →
      (∀ p ∈ ps, JsonSays env fl p.1 p.2.1 p.2.2) →
      JsonSays env fl (.quad a b c d) (inBlocks tr (ps.map (·.2.1))) (.seq (ps.map (·.2.2)))
  | hmap {k t tr r} (ps : List ((List Lexeme × Val) × (List Lexeme × Val))) :
      (∀ p ∈ ps, JsonSays env fl k p.1.1 p.1.2) → (∀ p ∈ ps, JsonSays env fl t p.2.1 p.2.2) →
      LastWins (ps.map fun p => .entry p.1.2 p.2.2) r → r.map Val.key = firsts (ps.map fun p => p.1.2) →
      JsonSays env fl (.hmap k t) (inCurlies tr (ps.map fun p => p.1.1 ++ .punct .colon :: p.2.1)) (.seq r)
  | bmap {k t tr r} (ps : List ((List Lexeme × Val) × (List Lexeme × Val))) :
      (∀ p ∈ ps, JsonSays env fl k p.1.1 p.1.2) → (∀ p ∈ ps, JsonSays env fl t p.2.1 p.2.2) →
      LastWins (ps.map fun p => .entry p.1.2 p.2.2) r → r.Pairwise (fun a b => env.cmp a.key b.key = .lt) →
      JsonSays env fl (.bmap k t) (inCurlies tr (ps.map fun p => p.1.1 ++ .punct .colon :: p.2.1)) (.seq r)
  | box {t ls v} : JsonSays env fl t ls v → JsonSays env fl (.box t) ls (.box v)
  /-- Members that belong to no field are passed over. -/
  | struct {i fs cd nul vs tr} (ps : List (Member (List Lexeme))) : env.defs[i]? = some (.struct fs cd nul) →
      JFieldsGet cd fs ps vs →
      (∀ p ∈ ps, ∀ f ∈ fs, f.skip = false → f.jsonName = p.1 → JsonSays env fl f.readTy p.2.1 p.2.2) →
      (∀ p ∈ ps, (∀ f ∈ fs, f.skip = false → f.jsonName ≠ p.1) → PassedOver p.2.1) →
      JsonSays env fl (.named i) (inCurlies tr (ps.map Member.lexemes)) (.struct vs)
  | noFields {i trans} : env.defs[i]? = some (.tuple [] trans) →
      JsonSays env fl (.named i) (inCurlies false []) (.struct [])
  | transparent {i t ls v} : env.defs[i]? = some (.tuple [t] true) → JsonSays env fl t ls v →
      JsonSays env fl (.named i) ls (.struct [v])
  /-- A tuple struct with one field: an array of one item, without trailing comma. -/
  | newtype {i t ls v} : env.defs[i]? = some (.tuple [t] false) → JsonSays env fl t ls v →
      JsonSays env fl (.named i) (inBlocks false [ls]) (.struct [v])
  | tupleStruct {i trans tr} (ps : List (Ty × List Lexeme × Val)) : env.defs[i]? = some (.tuple (ps.map (·.1)) trans) →
      2 ≤ ps.length → (∀ p ∈ ps, JsonSays env fl p.1 p.2.1 p.2.2) →
      JsonSays env fl (.named i) (inBlocks tr (ps.map (·.2.1))) (.struct (ps.map (·.2.2)))
  | variant {i vars j var} : env.defs[i]? = some (.enum vars) → vars[j]? = some var → var.shape = .unit →
      JsonSays env fl (.named i) [.str var.jsonName] (.variant j [])
  | tupleVariant {i vars j var tr} (ps : List (Ty × List Lexeme × Val)) : env.defs[i]? = some (.enum vars) →
      vars[j]? = some var → var.shape = .tuple (ps.map (·.1)) →
      (∀ p ∈ ps, JsonSays env fl p.1 p.2.1 p.2.2) →
      JsonSays env fl (.named i) (inCurlies false [.str var.jsonName :: .punct .colon :: inBlocks tr (ps.map (·.2.1))])
        (.variant j (ps.map (·.2.2)))
  | structVariant {i vars j var fs vs tr} (ps : List (Member (List Lexeme))) : env.defs[i]? = some (.enum vars) →
      vars[j]? = some var → var.shape = .named fs → JFieldsGet false fs ps vs →
      (∀ p ∈ ps, ∀ f ∈ fs, f.skip = false → f.jsonName = p.1 → JsonSays env fl f.readTy p.2.1 p.2.2) →
      (∀ p ∈ ps, (∀ f ∈ fs, f.skip = false → f.jsonName ≠ p.1) → PassedOver p.2.1) →
      JsonSays env fl (.named i) (inCurlies false [.str var.jsonName :: .punct .colon :: inCurlies tr (ps.map Member.lexemes)])
        (.variant j vs)
  | proxied {i px ls p} : env.proxies[i]? = some px → JsonSays env fl px.ty ls p →
      JsonSays env fl (.proxied i) ls (.prox (px.back p) (px.into (px.back p)))

/-- `txt` begins with a value with the lexemes `ls`: they are followed by the end of the text or by some
legible lexeme — which is not a string if the value is just a string. -/
def JBegins (fl : FloatOps) (ls : List Lexeme) (txt : List Char) : Prop :=
  JWhole fl ls txt ∨ ∃ l rest, JScan fl (ls ++ [l]) txt rest ∧ ¬ ((∃ a, ls = [.str a]) ∧ ∃ b, l = .str b)

/-- What is read where two strings `"a" "b"` stand: the first one, but for an enum the variant is looked up
under the second one (it must be a unit variant; the first string can be anything). -/
inductive StrPair (env : Env) : Ty → List Char → List Char → Val → Prop where
  | str {a b} : StrPair env .str a b (.str a)
  | some {t a b v} : StrPair env t a b v → StrPair env (.option t) a b (.some v)
  | box {t a b v} : StrPair env t a b v → StrPair env (.box t) a b (.box v)
  | transparent {i t a b v} : env.defs[i]? = some (.tuple [t] true) → StrPair env t a b v →
      StrPair env (.named i) a b (.struct [v])
  | proxied {i px a b p} : env.proxies[i]? = some px → StrPair env px.ty a b p →
      StrPair env (.proxied i) a b (.prox (px.back p) (px.into (px.back p)))
  | variant {i vars j var a} : env.defs[i]? = some (.enum vars) → vars[j]? = some var → var.shape = .unit →
      StrPair env (.named i) a var.jsonName (.variant j [])

/-- The value a text stands for, for a reader of `t`: that of the value it begins with, or, where two strings
stand instead, that of `StrPair`. -/
def JsonReading (env : Env) (fl : FloatOps) (t : Ty) (txt : List Char) (v : Val) : Prop :=
  (∃ ls, JBegins fl ls txt ∧ JsonSays env fl t ls v) ∨
  ∃ a b rest, JScan fl [.str a, .str b] txt rest ∧ StrPair env t a b v

end NS
