import Verif.Spec.DeriveDef
import Verif.Model.GenDe

/-!
# Running generated code on the values of a declared type (specification)
-/

namespace NS.Derive
open NS

/-- The fields of a value, by name, each at its declared type. -/
def fieldVals (N : Names) (fs : List RField) (vs : List Val) : List (Txt × TV) :=
  List.zipWith (fun f v => (f.name, ⟨f.ty.text, N.ty f.ty.text, v⟩)) fs vs

/-- The components of a tuple, by number. -/
def compVals (N : Names) : Nat → List RTy → List Val → List (Txt × TV)
  | n, t :: ts, v :: vs => (showNat n, ⟨t.text, N.ty t.text, v⟩) :: compVals N (n + 1) ts vs
  | _, _, _ => []

/-- The value of a struct with the components `vs`, as generated code sees it (`&self`). -/
def RStruct.value (N : Names) (s : RStruct) (vs : List Val) : WSelf :=
  match s.body with
  | .named fs _ => .struct (fieldVals N fs vs)
  | .tuple fs _ => .struct (compVals N 0 (fs.map (·.ty)) vs)
  | .unit => .struct []

/-- The value of the variant `v` with the components `vs`. -/
def RVariant.value (N : Names) (v : RVariant) (vs : List Val) : WSelf :=
  match v.shape with
  | .named fs _ => .variant v.name (some true) (fieldVals N fs vs)
  | .tuple ts => .variant v.name (some false) (compVals N 0 ts vs)
  | _ => .variant v.name none []

/-- No two have the same name (a rule of Rust). -/
def DistinctNames (ns : List Txt) : Prop := ns.Pairwise (· ≠ ·)

/-- The declared types mean what the macros take them for: a type written `Option<..>` is the `Option` of the
standard library, and the `proxy` of a field names a type with conversions. -/
def RField.Fits (env : Env) (N : Names) (f : RField) : Prop :=
  (f.ty.isOption = true → ∃ t, N.ty f.ty.text = .option t) ∧
  ∀ p, firstVal "proxy".toList f.opts = some p → ∃ px, env.proxies[N.proxy f.ty.text p]? = some px

/-- The same for all fields of a struct. -/
def RStruct.Fits (env : Env) (N : Names) (s : RStruct) : Prop :=
  match s.body with
  | .named fs _ => ∀ f ∈ fs, f.Fits env N
  | _ => True

/-- The same for all fields of the struct variants of an enum. -/
def REnum.Fits (env : Env) (N : Names) (e : REnum) : Prop :=
  ∀ v ∈ e.variants, match v.shape with
    | .named fs _ => ∀ f ∈ fs, f.Fits env N
    | _ => True

/-- The structs for which the generated writer compiles and writes every field: with the binary and RON formats
`skip` on a field of a tuple struct is excluded, with RON the struct without fields. -/
def RStruct.Writable (fmt : Fmt) (s : RStruct) : Prop :=
  match s.body with
  | .named fs _ => DistinctNames (fs.map (·.name))
  | .tuple fs _ => (fmt = .json ∨ ∀ f ∈ fs, hasFlag "skip".toList (optsOf f.attrs) = false) ∧ (fmt = .ron → fs ≠ [])
  | .unit => fmt ≠ .ron

/-- The variants for which the arm of the generated writer compiles: a struct variant has no field called `s`
and, with JSON and RON, none called `d` (the parameters of the method), and with JSON a field of a struct variant
has a `proxy` only if it is an `Option`. -/
def RVariant.Writable (fmt : Fmt) (v : RVariant) : Prop :=
  match v.shape with
  | .named fs _ => DistinctNames (fs.map (·.name)) ∧ "s".toList ∉ fs.map (·.name) ∧
      (fmt ≠ .bin → "d".toList ∉ fs.map (·.name)) ∧
      (fmt = .json → ∀ f ∈ fs, firstVal "proxy".toList f.opts = none ∨ f.ty.isOption = true)
  | .tuple ts => fmt = .bin ∨ ts ≠ []
  | _ => True

/-- The enums for which the generated writer compiles: `65536u16` is not a literal of that type. -/
def REnum.Writable (fmt : Fmt) (e : REnum) : Prop :=
  DistinctNames (e.variants.map (·.name)) ∧ (fmt = .bin → e.variants.length ≤ 65536) ∧ ∀ v ∈ e.variants, v.Writable fmt

/-! ## Readers -/

/-- The components of a tuple, by number, with their types. -/
def compTys : Nat → List RTy → List (Txt × Txt)
  | _, [] => []
  | n, t :: ts => (showNat n, t.text) :: compTys (n + 1) ts

/-- The fields, with their types. -/
def fieldTys (fs : List RField) : List (Txt × Txt) := fs.map fun f => (f.name, f.ty.text)

/-- The constructor of a struct, called `Self` or by its name. -/
def RStruct.target (s : RStruct) (path : List Txt) : Option RTarget :=
  if path = ["Self".toList] ∨ path = [s.name] then
    some (match s.body with
      | .named fs _ => ⟨some true, fieldTys fs, .struct⟩
      | .tuple fs _ => ⟨some false, compTys 0 (fs.map (·.ty)), .struct⟩
      | .unit => ⟨none, [], .struct⟩)
  else none

/-- The constructor of the variant number `j`. -/
def RVariant.target (j : Nat) (v : RVariant) : RTarget :=
  match v.shape with
  | .named fs _ => ⟨some true, fieldTys fs, .variant j⟩
  | .tuple ts => ⟨some false, compTys 0 ts, .variant j⟩
  | _ => ⟨none, [], .variant j⟩

/-- The constructors of an enum, called `Self::V` or `E::V`. -/
def REnum.target (e : REnum) (path : List Txt) : Option RTarget :=
  (e.variants.findIdx? fun v => path = ["Self".toList, v.name] ∨ path = [e.name, v.name]).bind fun j =>
    (e.variants[j]?).map (RVariant.target j)

/-- The expression `Default::default()` means the default of the type. -/
def Names.Dflt (N : Names) : Prop := ∀ t, N.expr t "Default::default()".toList = N.dflt t

/-- The `proxy` option in `os` on a place of the type written `t` names a type with conversions. -/
def ProxyFits (env : Env) (N : Names) (os : List ROpt) (t : RTy) : Prop :=
  ∀ p, firstVal "proxy".toList os = some p → ∃ px, env.proxies[N.proxy t.text p]? = some px ∧ px.ty = N.ty p

/-- The same for all fields of a struct. -/
def RStruct.ProxiesFit (env : Env) (N : Names) (s : RStruct) : Prop :=
  match s.body with
  | .named fs _ => ∀ f ∈ fs, ProxyFits env N f.opts f.ty
  | .tuple fs _ => ∀ f ∈ fs, ProxyFits env N (optsOf f.attrs) f.ty
  | .unit => True

/-- The same for all fields of the struct variants of an enum. -/
def REnum.ProxiesFit (env : Env) (N : Names) (e : REnum) : Prop :=
  ∀ v ∈ e.variants, match v.shape with
    | .named fs _ => ∀ f ∈ fs, ProxyFits env N f.opts f.ty
    | _ => True

/-- The structs for which the macro returns and the generated reader compiles: the binary macro panics on
`skip` in a tuple struct, the JSON reader of a struct without fields builds it as `Self`, which is right for
`struct S;` and wrong for `struct S();`, the RON reader as `Self()`, which is the other way round. -/
def RStruct.Readable (fmt : Fmt) (s : RStruct) : Prop :=
  match s.body with
  | .named fs _ => DistinctNames (fs.map (·.name))
  | .tuple fs _ => (fmt = .bin → ∀ f ∈ fs, hasFlag "skip".toList (optsOf f.attrs) = false) ∧ (fmt = .json → fs ≠ [])
  | .unit => fmt ≠ .ron

/-- The enums for which the generated reader compiles. -/
def REnum.Readable (fmt : Fmt) (e : REnum) : Prop :=
  DistinctNames (e.variants.map (·.name)) ∧ (fmt = .bin → e.variants.length ≤ 65536) ∧
  ∀ v ∈ e.variants, match v.shape with
    | .named fs _ => DistinctNames (fs.map (·.name))
    | _ => True

end NS.Derive
