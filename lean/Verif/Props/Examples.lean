import Verif.Lemmas.Lawful
import Verif.Spec.Bin
/-!
Concrete definitions used to show that the hypotheses of the property theorems are met by
non-trivial programs and values.

```rust
#[derive(SerBin, DeBin)] struct Node { id: u16, #[nserde(skip)] note: String, next: Option<Box<Node>> }
#[derive(SerBin, DeBin)] enum E { A, B(i8, String), C { n: Node, t: SystemTime } }
```
-/
namespace NS

/-- Names as character lists. -/
def chars (s : String) : List Char := s.toList

/-- `Node` (definition 0). -/
def exNode : Def := .struct
  [ { name := chars "id", ty := .int .u16, tyDefault := .int 0 },
    { name := chars "note", ty := .str, skip := true, tyDefault := .str [] },
    { name := chars "next", ty := .option (.box (.named 0)), optSyn := true, tyDefault := .none } ]
  false false

/-- `E` (definition 1). -/
def exEnum : Def := .enum
  [ { name := chars "A", shape := .unit },
    { name := chars "B", shape := .tuple [.int .i8, .str] },
    { name := chars "C", shape := .named
        [ { name := chars "n", ty := .named 0 }, { name := chars "t", ty := .time } ] } ]

/-- Both definitions, with a lawful key order, and a proxy `i8 ↔ String`-free wrapper
(the proxied type is a newtype over `u8` that goes through `u8`). -/
noncomputable def exEnv : Env :=
  lawEnv [exNode, exEnum] [{ ty := .int .u8, into := fun v => match v with | .struct [x] => x | x => x,
                             back := fun v => .struct [v] }]

theorem exEnv_lawful : LawfulKeys exEnv := lawEnv_lawful _ _

@[simp] theorem exEnv_defs : exEnv.defs = [exNode, exEnum] := rfl
@[simp] theorem exEnv_memSize (t) : exEnv.memSize t = 8 := rfl
@[simp] theorem exEnv_cap (a b) : exEnv.hashCapPanics a b = false := rfl

theorem exEnv_small : EnumsSmall exEnv := by
  intro i vars h
  simp only [exEnv_defs] at h
  match i with
  | 0 => simp [exNode] at h
  | 1 => simp [exEnum] at h; subst h; decide
  | n + 2 => simp at h

/-- `Node { id: 513, note: "x", next: Some(Box::new(Node { id: 7, note: "y", next: None })) }`. -/
def exNodeVal : Val :=
  .struct [.int 513, .str (chars "x"), .some (.box (.struct [.int 7, .str (chars "y"), .none]))]

/-- The same with `note` at its default. -/
def exNodeVal' : Val :=
  .struct [.int 513, .str [], .some (.box (.struct [.int 7, .str [], .none]))]

/-- `vec![E::A, E::B(-3, "é".into()), E::C { n: .., t: UNIX_EPOCH + 5.25s }]`. -/
def exVal : Val := .seq [.variant 0 [], .variant 1 [.int (-3), .str [Char.ofNat 233]],
  .variant 2 [exNodeVal', .time 5 250000000]]

end NS
