import Verif.Model.Json
import Verif.Model.Toml
/-!
# Model of `Debug` and `Display` of the error types

src/serde_bin.rs:91-118, src/serde_json.rs:160-203, src/serde_ron.rs:151-194, src/toml.rs:204-227
and the derived `Debug` of the token types (src/serde_json.rs:105-125, src/serde_ron.rs:95-116,
src/toml.rs:59-79).  `Display` calls `Debug`, so there is one text.  Formatting flags of the caller
(`{:#?}`, widths) do not reach the inner `write!`.
-/
namespace NS

/-- What the texts use of std besides `FloatOps`: `{:?}` of a `char` and of a `str`. -/
structure DebugOps where
  chr : Char → List Char
  str : List Char → List Char

/-- The text of `DeBinErr` (src/serde_bin.rs:91-118).  The only `Range` error of the crate is that of
`Duration` (src/serde_bin.rs:679-684). -/
def binErrText (e : BinErr) : List Char :=
  match e.msg with
  | .length l s =>
    "Bin deserialize error at:".toList ++ showNat e.o ++ " wanted:".toList ++ showNat l ++
      " bytes but max size is ".toList ++ showNat s
  | .range =>
    "Bin deserialize error at:".toList ++ showNat e.o ++ " ".toList ++
      "Duration nanos must be at most 1,000,000,000".toList
  | .unknownDiscriminant v =>
    "Bin deserialize error at ".toList ++ showNat e.o ++ ": Unknown variant ".toList ++ showInt v

/-- `{:?}` of `bool`. -/
def dbgBool (b : Bool) : List Char := if b then "true".toList else "false".toList

/-- `#[derive(Debug)]` of `DeJsonTok` (src/serde_json.rs:105-125) and `DeRonTok`
(src/serde_ron.rs:95-116). -/
def tokText (D : DebugOps) (fl : FloatOps) : Tok → List Char
  | .ident => "Ident".toList
  | .str => "Str".toList
  | .u64 n => "U64(".toList ++ showNat n ++ ")".toList
  | .i64 i => "I64(".toList ++ showInt i ++ ")".toList
  | .f64 x => "F64(".toList ++ fl.show64 x ++ ")".toList
  | .bool b => "Bool(".toList ++ dbgBool b ++ ")".toList
  | .char c => "Char(".toList ++ D.chr c ++ ")".toList
  | .bareIdent => "BareIdent".toList
  | .null => "Null".toList
  | .colon => "Colon".toList
  | .curlyOpen => "CurlyOpen".toList
  | .curlyClose => "CurlyClose".toList
  | .parenOpen => "ParenOpen".toList
  | .parenClose => "ParenClose".toList
  | .blockOpen => "BlockOpen".toList
  | .blockClose => "BlockClose".toList
  | .comma => "Comma".toList
  | .bof => "Bof".toList
  | .eof => "Eof".toList

/-- `Debug` of `DeJsonErrReason` (src/serde_json.rs:160-174) and `DeRonErrReason`
(src/serde_ron.rs:151-165). -/
def reasonText (D : DebugOps) (fl : FloatOps) : Reason → List Char
  | .unexpectedKey k => "Unexpected key ".toList ++ k
  | .missingKey k => "Key not found ".toList ++ k
  | .noSuchEnum k => "Enum not defined ".toList ++ k
  | .unexpectedToken t what =>
    "Unexpected token ".toList ++ tokText D fl t ++ " expected ".toList ++ what ++ " ".toList
  | .outOfRange v => "Value out of range ".toList ++ v ++ " ".toList
  | .wrongType v => "Token wrong type ".toList ++ v ++ " ".toList
  | .cannotParse v => "Cannot parse ".toList ++ v ++ " ".toList

/-- The end of every text: `, line:{} col:{}` with `line + 1` and `col + 1`
(src/serde_json.rs:183-189, src/serde_ron.rs:174-180, src/toml.rs:206-212). -/
def posText (line col : Nat) : List Char :=
  ", line:".toList ++ showNat (line + 1) ++ " col:".toList ++ showNat (col + 1)

/-- The text of `DeJsonErr` (src/serde_json.rs:176-203). -/
def jsonErrText (D : DebugOps) (fl : FloatOps) (e : PErr) : List Char :=
  "Json Deserialize error: ".toList ++ reasonText D fl e.msg ++ posText e.line e.col

/-- The text of `DeRonErr` (src/serde_ron.rs:167-194). -/
def ronErrText (D : DebugOps) (fl : FloatOps) (e : PErr) : List Char :=
  "Ron Deserialize error: ".toList ++ reasonText D fl e.msg ++ posText e.line e.col

/-- `#[derive(Debug)]` of `TomlTok` (src/toml.rs:59-79). -/
def ttokText (D : DebugOps) (fl : FloatOps) : TTok → List Char
  | .ident s => "Ident(".toList ++ D.str s ++ ")".toList
  | .str s => "Str(".toList ++ D.str s ++ ")".toList
  | .u64 n => "U64(".toList ++ showNat n ++ ")".toList
  | .i64 i => "I64(".toList ++ showInt i ++ ")".toList
  | .f64 x => "F64(".toList ++ fl.show64 x ++ ")".toList
  | .bool b => "Bool(".toList ++ dbgBool b ++ ")".toList
  | .nan b => "Nan(".toList ++ dbgBool b ++ ")".toList
  | .inf b => "Inf(".toList ++ dbgBool b ++ ")".toList
  | .date s => "Date(".toList ++ D.str s ++ ")".toList
  | .equals => "Equals".toList
  | .blockOpen => "BlockOpen".toList
  | .blockClose => "BlockClose".toList
  | .comma => "Comma".toList
  | .eof => "Eof".toList

/-- The `msg` of a `TomlErr` (src/toml.rs:403-417). -/
def tmsgText (D : DebugOps) (fl : FloatOps) : TMsg → List Char
  | .token t => "Unexpected token ".toList ++ ttokText D fl t ++ " ".toList
  | .parse what => "Cannot parse toml ".toList ++ what ++ " ".toList

/-- The text of `TomlErr` (src/toml.rs:204-227). -/
def tomlErrText (D : DebugOps) (fl : FloatOps) (e : TErr) : List Char :=
  "Toml error: ".toList ++ tmsgText D fl e.msg ++ posText e.line e.col

end NS
