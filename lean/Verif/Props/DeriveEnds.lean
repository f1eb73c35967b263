import Verif.Lemmas.DeriveEnds
import Verif.Props.Derive

/-! # C102: the derive macros' parser stops

`parseItem n ts` runs the parser with `n` units of fuel; `.oof` says that they did not suffice.  A
parser that is `.oof` for every `n` never stops. -/

namespace NS
open Derive

/-- **C102**: the derive macros' parser stops on every token list, well-formed item or not: it returns
a tree or panics (a compile error).  Only for structs something is asked of the tokens: no literal
stands directly between the parentheses of a parenthesised group of the item itself (the fields of a
tuple struct).  The fuel needed is linear in the size of the item. -/
theorem C102_derive_parser_stops (ts : List TT)
    (h : TT.ident "struct".toList ∈ ts → ∀ g, TT.group .paren g ∈ ts → ∀ s, TT.lit s ∉ g) (n : Nat) (hn : sizeOf ts < n) :
    (∃ d rest, parseItem n ts = .ok d rest) ∨ parseItem n ts = .panic := by
  have := (parse_run (n := n) h hn).1
  unfold parseItem
  cases e : parseData n ts with
  | ok d r => exact .inl ⟨d, r, rfl⟩
  | panic => exact .inr rfl
  | err x _ => exact x.elim
  | oof => exact absurd e this

/-- **C102**: the reader of types stops on every token list, and what it leaves is an end of it. -/
theorem C102_derive_type_stops (ts : List TT) (n : Nat) (hn : sizeOf ts < n) :
    (∃ t rest, nextType n ts = .ok t rest ∧ rest <:+ ts) ∨ nextType n ts = .panic := by
  have := type_ends n ts hn
  cases e : nextType n ts with
  | ok d r => exact .inl ⟨d, r, rfl, this.2 _ _ e⟩
  | panic => exact .inr rfl
  | err x _ => exact x.elim
  | oof => exact absurd e this.1

/-- From a literal on, the fields of a tuple struct are read for ever. -/
theorem literal_hangs (k j m : Nat) (acc : List PField) (s : Txt) (r : List TT) :
    nextFields k (nextType j) false m acc (.lit s :: r) = .oof := by
  induction m generalizing acc with
  | zero => rfl
  | succ m ih =>
    unfold nextFields
    rw [M.bind_ok (show nextEof (.lit s :: r) = .ok false (.lit s :: r) from rfl)]
    simp only [Bool.false_eq_true, if_false]
    cases k with
    | zero => rfl
    | succ k =>
      rw [M.bind_ok (show nextAttributesList (k + 1) (.lit s :: r) = .ok [] (.lit s :: r) from rfl),
        M.bind_ok (show nextVisibility (.lit s :: r) = .ok () (.lit s :: r) from rfl),
        M.bind_ok (show (pure none : DM (Option Txt)) (.lit s :: r) = .ok none (.lit s :: r) from rfl)]
      rcases j with _ | _ | j
      · rfl
      · rfl
      · rw [M.bind_ok (show (nextType (j + 2) >>= expect) (.lit s :: r) = .ok (.mk .none none none none) (.lit s :: r) from rfl),
          M.bind_ok (show nextPunct (.lit s :: r) = .ok none (.lit s :: r) from rfl)]
        exact ih _

/-- `extern "C" fn(u8)`. -/
def exHangFields : List TT :=
  [.ident "extern".toList, .lit "\"C\"".toList, .ident "fn".toList, .group .paren [.ident "u8".toList]]

/-- `(extern "C" fn(u8));` -/
def exHangBody : List TT := [.group .paren exHangFields, .punct ';']

/-- `struct S(extern "C" fn(u8));` -/
def exHang : List TT := .ident "struct".toList :: .ident "S".toList :: exHangBody

theorem type_extern (n : Nat) : nextType (n + 3) exHangFields = .ok (some (.mk (.named "extern".toList) none none none)) exHangFields.tail := by
  have ho : nextObject (n + 2) (nextType (n + 2)) exHangFields = .ok none exHangFields := by
    unfold nextObject
    rw [M.bind_ok (peek_eq _)]
    simp only [exHangFields, List.head?_cons]
    rw [if_neg (by decide +kernel)]; rfl
  have hf : nextFunctionLike (nextType (n + 2)) exHangFields = .ok none exHangFields := by
    unfold nextFunctionLike
    rw [M.bind_ok (peek_eq _)]
    simp only [exHangFields, List.head?_cons]
    rw [if_neg (by decide +kernel), if_neg (by decide +kernel), if_neg (by decide +kernel), if_neg (by decide +kernel)]; rfl
  have hp : nextPathType (n + 2) (nextType (n + 2)) none exHangFields = .ok (.mk (.named "extern".toList) none none none) exHangFields.tail := by
    unfold nextPathType
    rw [M.bind_ok (show nextIdent exHangFields = .ok (some "extern".toList) exHangFields.tail from rfl),
      M.bind_ok (show pathLoop (n + 2) ((some "extern".toList).getD []) exHangFields.tail = .ok "extern".toList exHangFields.tail from rfl),
      M.bind_ok (show nextExactPunct '<' exHangFields.tail = .ok false exHangFields.tail from rfl)]
    simp only [Bool.false_eq_true, if_false]
    rw [M.bind_ok (show asOtherType (nextType (n + 2)) exHangFields.tail = .ok none exHangFields.tail from rfl)]
    rfl
  have e : ∀ c, nextExactPunct c exHangFields = .ok false exHangFields := fun _ => rfl
  unfold nextType typeBody
  rw [M.bind_ok (e ',')]
  simp only [Bool.false_eq_true, if_false]
  rw [M.bind_ok (e '!')]
  simp only [Bool.false_eq_true, if_false]
  rw [M.bind_ok (e '\'')]
  simp only [Bool.false_eq_true, if_false]
  rw [M.bind_ok (e '&')]
  simp only [Bool.false_eq_true, if_false]
  exact typeCore_path (by simp [exHangFields]) ho hf hp

/-- **C102**, why the hypothesis is needed: deriving any of the traits for
`struct S(extern "C" fn(u8));` – a declaration rustc accepts – never finishes: the parser takes
`extern` for the type of a first field, then reads fields without consuming anything. -/
theorem C102_derive_literal_hangs (n : Nat) : parseItem n exHang = .oof := by
  rcases n with _ | _ | _ | n
  · rfl
  · rfl
  · rfl
  · have hf : nextFields (n + 3) (nextType (n + 3)) false (n + 3) []
        exHangFields = .oof := by
      unfold nextFields
      rw [M.bind_ok (show nextEof exHangFields = .ok false exHangFields from rfl)]
      simp only [Bool.false_eq_true, if_false]
      have hv : nextVisibility exHangFields = .ok () exHangFields := by
        simp only [nextVisibility, exHangFields]
        rw [if_neg (by decide +kernel)]
      rw [M.bind_ok (show nextAttributesList (n + 3) exHangFields = .ok [] exHangFields from rfl), M.bind_ok hv,
        M.bind_ok (show (pure none : DM (Option Txt)) exHangFields = .ok none exHangFields from rfl),
        M.bind_ok (show (nextType (n + 3) >>= expect) exHangFields = .ok _ exHangFields.tail by
          rw [M.bind_ok (type_extern n)]; rfl),
        M.bind_ok (show nextPunct exHangFields.tail = .ok none exHangFields.tail from rfl)]
      exact literal_hangs (n + 3) (n + 3) (n + 2) [.mk [] none (.mk (.named "extern".toList) none none none)] _ _
    unfold parseItem parseData
    rw [M.bind_ok (show nextAttributesList (n + 3) exHang = .ok [] exHang from rfl)]
    rw [M.bind_ok (show (nextIdent >>= expect) exHang = .ok "struct".toList (.ident "S".toList :: exHangBody) from rfl)]
    have hs : nextStruct (n + 3) (nextType (n + 3)) (.ident "S".toList :: exHangBody) = .oof := by
      unfold nextStruct
      rw [M.bind_ok (show nextIdent (.ident "S".toList :: exHangBody) = .ok (some "S".toList) exHangBody from rfl),
        M.bind_ok (show getAllBounds (n + 3) (nextType (n + 3)) exHangBody = .ok [] exHangBody by
          unfold getAllBounds; rw [M.bind_ok (peek_eq _)]; rfl),
        M.bind_ok (show nextGroup exHangBody = .ok (some (.paren, exHangFields)) [.punct ';'] from rfl)]
      simp only
      rw [M.bind_def]
      unfold onStream
      rw [hf]
    rw [if_neg (show ¬"struct".toList = "pub".toList by decide +kernel),
      M.bind_ok (show (pure "struct".toList : DM Txt) (.ident "S".toList :: exHangBody) = .ok _ (.ident "S".toList :: exHangBody) from rfl), if_pos rfl]
    rw [M.bind_def, M.bind_def, hs]

/-! ### The hypotheses are met -/

/-- An enum of which the tokens are in no order: the parser stops. -/
example : (∃ d rest, parseItem 9 [.ident "enum".toList, .group .paren [.lit "1".toList]] = .ok d rest) ∨
    parseItem 9 [.ident "enum".toList, .group .paren [.lit "1".toList]] = .panic := .inr rfl

/-- A tuple struct with an array, a reference and an option with a literal: no literal stands
directly between the parentheses. -/
def exTupleToks : List TT :=
  [.ident "struct".toList, .ident "P".toList,
    .group .paren [.punct '#', .group .bracket [.ident "nserde".toList, .group .paren [.ident "rename".toList, .punct '=', .lit "\"x\"".toList]],
      .group .bracket [.ident "u8".toList, .punct ';', .lit "4".toList], .punct ','],
    .punct ';']

example : (∃ d rest, parseItem (sizeOf exTupleToks + 1) exTupleToks = .ok d rest) ∨ parseItem (sizeOf exTupleToks + 1) exTupleToks = .panic :=
  C102_derive_parser_stops exTupleToks (by
    intro _ g hg s hs
    simp [exTupleToks] at hg
    subst hg
    simp at hs) _ (Nat.lt_succ_self _)

example : ∃ d, parseItem 12 exTupleToks = .ok d [] := ⟨_, rfl⟩

end NS
