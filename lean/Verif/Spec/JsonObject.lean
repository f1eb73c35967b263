import Verif.Spec.JsonDoc
import Verif.Spec.Basic
import Verif.Model.Json
/-!
# What the members of a JSON object mean for a derived struct

Stated through the reader itself (`deserialize_json` on texts of the members' values), without the
reference decoder.
-/
namespace NS

/-- `deserialize_json` reads the JSON value `J` (in some spelling) as the value `v` of type `t`. -/
def ReadsAs (env : Env) (fl : FloatOps) (t : Ty) (J : JTree) (v : Val) : Prop :=
  ∃ txt, JText fl J txt ∧ Decodes (fun n => deserializeJson env fl n t txt) v

/-- The JSON value `J` is read as the value `v` of the field `f`.  (A field `Option<T>` with a
`proxy` attribute reads a `T`.) -/
def FieldReads (env : Env) (fl : FloatOps) (f : Field) (J : JTree) (v : Val) : Prop :=
  match f.optProxy, f.ty with
  | true, .option t => ∃ w, v = .some w ∧ ReadsAs env fl t J w
  | _, t => ReadsAs env fl t J v

/-- `J` is the value of the last member called `key`. -/
def LastMember (ms : List (JTree × JTree)) (key : List Char) (J : JTree) : Prop :=
  ∃ a b, ms = a ++ (.str key, J) :: b ∧ ∀ m ∈ b, m.1 ≠ .str key

/-- No member is called `key`. -/
def NoMember (ms : List (JTree × JTree)) (key : List Char) : Prop := ∀ m ∈ ms, m.1 ≠ .str key

/-- The name under which a field is read and written. -/
def Field.jsonName (f : Field) : List Char := f.rename.getD f.name

/-- The field may be absent: it is skipped, an `Option`, has a default, or the struct has. -/
def Field.mayBeAbsent (cd : Bool) (f : Field) : Prop :=
  f.skip = true ∨ f.optSyn = true ∨ cd = true ∨ f.dfltAttr.isSome = true

/-- The value of an absent field. -/
def Field.absentValue (f : Field) : Val := f.dfltAttr.getD f.tyDefault

/-- The names of the fields that are not skipped are distinct. -/
def DistinctNames (fs : List Field) : Prop :=
  fs.Pairwise fun f g => f.skip = false → g.skip = false → f.jsonName ≠ g.jsonName

/-- The object can be read as far as its members go: all keys are strings, a member that belongs to
a field has a value of the field's type (members that belong to no field may have any value), and
a struct without fields has no members. -/
def MembersReadable (env : Env) (fl : FloatOps) (fs : List Field) (ms : List (JTree × JTree)) : Prop :=
  (∀ m ∈ ms, ∃ k, m.1 = .str k) ∧ (fs = [] → ms = []) ∧
  ∀ f ∈ fs, f.skip = false → ∀ J, (.str f.jsonName, J) ∈ ms → ∃ w, FieldReads env fl f J w

/-- `w` is the value of the field `f` in the object with members `ms`: that of the last member with
its name or, without such a member, the default. -/
def FieldValue (env : Env) (fl : FloatOps) (cd : Bool) (ms : List (JTree × JTree)) (f : Field) (w : Val) : Prop :=
  if f.skip = true then w = f.absentValue
  else (∃ J, LastMember ms f.jsonName J ∧ FieldReads env fl f J w) ∨
    (NoMember ms f.jsonName ∧ f.mayBeAbsent cd ∧ w = f.absentValue)

/-- `es` are the map entries that the members denote, in their order. -/
inductive EntriesRead (env : Env) (fl : FloatOps) (k t : Ty) : List (JTree × JTree) → List Val → Prop where
  | nil : EntriesRead env fl k t [] []
  | cons {m ms a b es} : ReadsAs env fl k m.1 a → ReadsAs env fl t m.2 b → EntriesRead env fl k t ms es →
      EntriesRead env fl k t (m :: ms) (.entry a b :: es)

/-- `vs` are the values that the items denote, one by one, at the given types. -/
inductive ItemsRead (env : Env) (fl : FloatOps) : List Ty → List JTree → List Val → Prop where
  | nil : ItemsRead env fl [] [] []
  | cons {t ts J Js v vs} : ReadsAs env fl t J v → ItemsRead env fl ts Js vs →
      ItemsRead env fl (t :: ts) (J :: Js) (v :: vs)

end NS
