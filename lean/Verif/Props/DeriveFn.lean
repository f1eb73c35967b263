import Verif.Props.Derive

/-! # C58, C61: function types, closure bounds, trait objects and associated type bindings

Examples for the theorems of `Props/Derive` with such types, and what the macros' parser gets wrong
about them (it does so outside the fragment `RTy.WF`). -/

namespace NS
open Derive

/-- ```
struct S<'a, F: Fn(u8) -> Option<T> + Send, I: Iterator<Item = T>, T> {
    #[nserde(skip)] cb: Option<fn(u8) -> String>,
    #[nserde(skip)] ob: Box<dyn FnMut() + 'a>,
    #[nserde(skip)] rf: &'a dyn a::Tr,
    x: T,
}
``` -/
def exFn : RStruct where
  name := "S".toList
  generics := { params := [.lifetime "a".toList [],
    .type "F".toList [.fnRet .fn [word "u8"] (.path false ["Option".toList] [word "T"]), word "Send"] none,
    .type "I".toList [.assoc false ["Iterator".toList] "Item".toList (word "T")] none,
    .type "T".toList [] none] }
  body := .named
    [{ attrs := [.nserde .paren [.flag "skip".toList]], name := "cb".toList,
       ty := .path false ["Option".toList] [.fnRet .bare [word "u8"] (word "String")] },
     { attrs := [.nserde .paren [.flag "skip".toList]], name := "ob".toList,
       ty := .path false ["Box".toList] [.obj true (.fnTy .fnMut []) [.lifetime "a".toList]] },
     { attrs := [.nserde .paren [.flag "skip".toList]], name := "rf".toList,
       ty := .ref (some "a".toList) (.obj true (.path false ["a".toList, "Tr".toList] []) []) },
     { name := "x".toList, ty := word "T" }] true

theorem exFn_wf : exFn.WF := by
  have sg : ∀ s : List Char, s ∈ ["Send".toList, "u8".toList, "T".toList, "String".toList, "Option".toList, "Iterator".toList,
      "Item".toList, "Box".toList, "F".toList, "I".toList] → Segs [s] := by
    intro s hs
    refine ex_segs s ?_ ?_ ?_ <;> (revert s; decide)
  have hw : ∀ s : String, Segs [s.toList] → (word s).WF := fun s h => word_wf h
  have ha : ∀ a ∈ [RAttr.nserde .paren [.flag "skip".toList]], a.WF := by
    intro a ha
    simp only [List.mem_cons, List.not_mem_nil, or_false] at ha
    subst ha
    exact ⟨by simp, fun o ho => by
      simp only [List.mem_cons, List.not_mem_nil, or_false] at ho
      subst ho; trivial⟩
  have hT := hw "T" (sg _ (by decide))
  refine ⟨by simp [exFn], ⟨?_, ?_, by simp [exFn]⟩, ?_, trivial⟩
  · intro p hp
    simp only [exFn, List.mem_cons, List.not_mem_nil, or_false] at hp
    rcases hp with rfl | rfl | rfl | rfl
    · trivial
    · refine ⟨sg _ (by decide), by decide, by decide, ⟨⟨by decide, ⟨hw "u8" (sg _ (by decide)), trivial⟩, sg _ (by decide), hT, trivial⟩,
        hw "Send" (sg _ (by decide)), trivial⟩, ?_, by simp⟩
      intro b hb
      simp only [List.mem_cons, List.not_mem_nil, or_false] at hb
      rcases hb with rfl | rfl <;> rfl
    · refine ⟨sg _ (by decide), by decide, by decide, ⟨⟨sg _ (by decide), sg _ (by decide), hT⟩, trivial⟩, ?_, by simp⟩
      intro b hb
      simp only [List.mem_cons, List.not_mem_nil, or_false] at hb
      subst hb; rfl
    · exact ⟨sg _ (by decide), by decide, by decide, trivial, by simp, by simp⟩
  · show List.Pairwise _ ["a".toList, "F".toList, "I".toList, "T".toList]
    simp
  · intro f hf
    simp only [List.mem_cons, List.not_mem_nil, or_false] at hf
    rcases hf with rfl | rfl | rfl | rfl
    · exact ⟨ha, by decide, sg _ (by decide), ⟨by decide, ⟨hw "u8" (sg _ (by decide)), trivial⟩, hw "String" (sg _ (by decide))⟩, trivial⟩
    · exact ⟨ha, by decide, sg _ (by decide), ⟨⟨by decide, trivial⟩, ⟨trivial, trivial⟩, rfl, by simp [RTy.endsObj]⟩, trivial⟩
    · refine ⟨ha, by decide, ⟨⟨⟨?_, ?_, ?_⟩, trivial⟩, trivial, rfl, by simp⟩, rfl⟩
      · exact ⟨by decide, by decide⟩
      · decide
      · intro x hx
        simp only [List.mem_cons, List.not_mem_nil, or_false] at hx
        subst hx; exact ⟨by decide, by decide⟩
    · exact ⟨by simp, by decide, hT⟩

/-- The header of the example, and its types as text. -/
example : ∃ p, Parses exFn.toks (.struct p) ∧
    boundsStrings p.generics "SerBin".toList "ns".toList =
      ("<'a:, F: Fn(u8) -> Option<T> + Send + ns::SerBin, I: Iterator<Item= T> + ns::SerBin, T: ns::SerBin, >".toList,
        "<'a, F, I, T, >".toList) := by
  obtain ⟨p, hp, hh⟩ := C61_derive_struct_header exFn exFn_wf
  exact ⟨p, hp, by rw [hh]; decide +kernel⟩

example : ∃ p, Parses exFn.toks (.struct p) ∧ Matching FieldRead
    (match exFn.body with | .named fs _ => fs | _ => []) p.fields := by
  obtain ⟨p, hp, _, _, hb, _⟩ := C58_derive_struct_read exFn exFn_wf
  exact ⟨p, hp, hb.2⟩

example : (RTy.path false ["Box".toList] [.obj true (.fnTy .fnMut []) [.lifetime "a".toList]]).text =
    "Box<dyn FnMut() + 'a>".toList := by decide +kernel

/-- **C61**: of a function type with several arguments only the first is read.  For
`F: Fn(A, B..) -> R` with any further arguments the parser returns what it returns for
`F: Fn(A) -> R`, so the generated header bounds `F` by another trait. -/
theorem C61_derive_fn_arguments_dropped (k : FnKw) (a : RTy) (as : List RTy) (r : RTy) (ha : a.WF) (hr : r.WF) :
    ∃ p : PType, p.full = (RTy.fnRet k [a] r).text ∧
      (RTy.fnRet k (a :: as) r).text = k.text ++ "(".toList ++ sepBy ", ".toList ((a :: as).map RTy.text) ++ ")".toList ++
        " -> ".toList ++ r.text ∧
      ∃ N, ∀ n, N ≤ n → nextType n (RTy.fnRet k (a :: as) r).toks = .ok (some p) [] := by
  have hw : (RTy.fnRet k [a] r).WF := ⟨Nat.le_refl _, ⟨ha, trivial⟩, hr⟩
  refine ⟨ptype (.fnRet k [a] r), full_ptype _ hw, by simp [RTy.text, textList_eq, textList], ?_⟩
  have hev : Ev fun n => nextType n (RTy.fnRet k (a :: as) r).toks = .ok (some (ptype (.fnRet k [a] r))) [] := by
    refine Ev.succ (((reads_ev ha).and (reads_ev hr)).mono fun n hn => ?_)
    have hret : nextReturnType (nextType n) (.punct '-' :: .punct '>' :: r.toks) = .ok (some (ptype r)) [] := by
      simp only [nextReturnType, and_self, if_true]
      have := reads_expect hn.2 (rest := []) (by simp [Derive.Follow]) fun _ => rfl
      rw [List.append_nil] at this
      rw [M.bind_ok this]
      rfl
    have hfol : Derive.Follow (as.flatMap fun t => TT.punct ',' :: t.toks) := by
      cases as with
      | nil => simp [Derive.Follow]
      | cons b bs => simp only [List.flatMap_cons, List.cons_append]; exact follow_comma _
    have hnp : NoPlus (as.flatMap fun t => TT.punct ',' :: t.toks) := by
      cases as with
      | nil => rfl
      | cons b bs => simp only [List.flatMap_cons, List.cons_append]; rfl
    have harg := reads_expect hn.1 hfol fun _ => hnp
    rw [← sepToks, ← toksList_eq] at harg
    have := functionLike k harg hret
    have := typeCore_fn (n := n) (r := none) k this
    show typeBody n (nextType n) _ = _
    rw [typeBody_core (by simp [RTy.toks]), ptype_fnRet]
    simp only [RTy.toks, List.cons_append, List.nil_append]
    simpa [argTy, PType.setRef] using this
  obtain ⟨N, h⟩ := hev
  exact ⟨N, h⟩

/-- `F: Fn(u8, u16) -> u32` is read as `F: Fn(u8) -> u32`. -/
example : ∃ p, Parses [.ident "struct".toList, .ident "S".toList, .punct '<', .ident "F".toList, .punct ':', .ident "Fn".toList,
      .group .paren [.ident "u8".toList, .punct ',', .ident "u16".toList], .punct '-', .punct '>', .ident "u32".toList,
      .punct '>', .group .brace []] (.struct p) ∧
    boundsStrings p.generics "SerBin".toList "nanoserde".toList =
      ("<F: Fn(u8) -> u32 + nanoserde::SerBin, >".toList, "<F, >".toList) := by
  refine ⟨.mk (some "S".toList) true [] [] [.generic "F".toList none [ptype (.fnRet .fn [word "u8"] (word "u32"))]],
    ⟨9, fun n hn => ?_⟩, ?_⟩
  · obtain ⟨k, rfl⟩ : ∃ k, n = k + 9 := ⟨n - 9, by omega⟩
    rfl
  · decide +kernel

/-- **C61**, why an associated type binding is the only generic argument: `I: Tr<A, Item = B>` gets
the header bound `Tr<A= B>`, which names the argument instead of the associated type. -/
theorem C61_derive_assoc_after_argument : ∃ p, Parses [.ident "struct".toList, .ident "S".toList, .punct '<',
      .ident "I".toList, .punct ':', .ident "Tr".toList, .punct '<', .ident "A".toList, .punct ',', .ident "Item".toList,
      .punct '=', .ident "B".toList, .punct '>', .punct '>', .group .brace []] (.struct p) ∧
    boundsStrings p.generics "SerBin".toList "nanoserde".toList =
      ("<I: Tr<A= B> + nanoserde::SerBin, >".toList, "<I, >".toList) := by
  refine ⟨.mk (some "S".toList) true [] [] [.generic "I".toList none [.mk (.associatedBound "Tr".toList (ptype (word "B")))
    (some [ptype (word "A"), ptype (word "Item")]) none none]],
    ⟨9, fun n hn => ?_⟩, ?_⟩
  · obtain ⟨k, rfl⟩ : ∃ k, n = k + 9 := ⟨n - 9, by omega⟩
    rfl
  · decide +kernel

end NS
