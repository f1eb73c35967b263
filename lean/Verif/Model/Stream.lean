import Verif.Model.Json
import Verif.Model.Ron
/-!
# Several values in one text

`de_json` and `de_ron` are public: a caller can set up the state as `deserialize_json` does and then read one
value after the other.  These are such callers (they are not in the library).
-/
namespace NS

/-- Values of the given types, one after the other.  (Caller's code: `T1::de_json(&mut s, &mut i)?; T2::de_json(&mut s, &mut i)?; …`) -/
def readEach (rd : Ty → PM Val) : List Ty → PM (List Val)
  | [] => pure []
  | t :: ts => rd t >>= fun v => readEach rd ts >>= fun vs => pure (v :: vs)

/-- Values of one type up to the end of the text.  (Caller's code: `while s.tok != Eof { vs.push(T::de_json(&mut s, &mut i)?) }`;
`DeJsonState.tok`, `DeRonState.tok` are public: serde_json.rs 128-138, serde_ron.rs 119-129.)  The number bounds the rounds. -/
def readUntilEof (rd : PM Val) : Nat → PM (List Val)
  | 0 => M.oof
  | n + 1 => M.get >>= fun s =>
    if s.tok = .eof then pure [] else rd >>= fun v => readUntilEof rd n >>= fun vs => pure (v :: vs)

/-- `next`, `next_tok`, then `de_json` for each type (serde_json.rs 78-102: the set-up of `deserialize_json`). -/
def jsonEach (env : Env) (fl : FloatOps) (n : Nat) (ts : List Ty) (txt : List Char) : Out PErr PSt (List Val) :=
  (jNext fl >>= fun _ => readEach (deJson env fl n) ts : PM (List Val)) (initSt jcol txt)
/-- The same, `de_json` for one type up to the end. -/
def jsonUntilEof (env : Env) (fl : FloatOps) (n : Nat) (t : Ty) (txt : List Char) : Out PErr PSt (List Val) :=
  (jNext fl >>= fun _ => readUntilEof (deJson env fl n t) n : PM (List Val)) (initSt jcol txt)
/-- `next`, `next_tok`, then `de_ron` for each type (serde_ron.rs 69-93). -/
def ronEach (env : Env) (fl : FloatOps) (n : Nat) (ts : List Ty) (txt : List Char) : Out PErr PSt (List Val) :=
  (rNext fl >>= fun _ => readEach (deRon env fl n) ts : PM (List Val)) (initSt rcol txt)
/-- The same, `de_ron` for one type up to the end. -/
def ronUntilEof (env : Env) (fl : FloatOps) (n : Nat) (t : Ty) (txt : List Char) : Out PErr PSt (List Val) :=
  (rNext fl >>= fun _ => readUntilEof (deRon env fl n t) n : PM (List Val)) (initSt rcol txt)

end NS
