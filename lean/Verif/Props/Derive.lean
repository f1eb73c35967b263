import Verif.Lemmas.DeriveDef
import Verif.Props.BinLayout

/-! # Properties C56–C62: what the derive macros read

`Parses ts d`: the macros' parser, run on the tokens `ts` of an item, returns the tree `d`.
Declarations (`RStruct`, `REnum`) and their tokens are in `Spec/DeriveDecl`; what it means that a
tree stands for a declaration is in `Spec/DeriveRead`. -/

namespace NS
open Derive

/-! ## An example declaration

```
#[derive(..)] #[nserde(default, crate = "ns")] #[nserde(crate = "other")]
pub struct S<'a, T: Clone> where T: Copy + 'a, {
    /// doc
    #[nserde(rename = "type", default = "x")] pub kind: Option<String>,
    #[nserde(skip)] pub(crate) m: HashMap<String, [T; 4]>,
    n: (u8, &'a str),
}
``` -/

/-- A type that is one word. -/
def word (s : String) : RTy := .path false [s.toList] []

/-- The example struct. -/
def exDecl : RStruct where
  attrs := [.other "derive".toList [.group .paren []],
    .nserde .paren [.flag "default".toList, .val "crate".toList (.str "ns".toList)],
    .nserde .paren [.val "crate".toList (.str "other".toList)]]
  isPub := true
  name := "S".toList
  generics := { params := [.lifetime "a".toList [], .type "T".toList [word "Clone"] none],
                wheres := [⟨"T".toList, [word "Copy", .lifetime "a".toList]⟩], wtrail := true }
  body := .named
    [{ attrs := [.other "doc".toList [.punct '=', .lit "\" doc\"".toList],
          .nserde .paren [.val "rename".toList (.str "type".toList), .val "default".toList (.str "x".toList)]],
       vis := .pub, name := "kind".toList, ty := .path false ["Option".toList] [word "String"] },
     { attrs := [.nserde .paren [.flag "skip".toList]], vis := .restricted [.ident "crate".toList],
       name := "m".toList, ty := .path false ["HashMap".toList] [word "String", .arr (word "T") 4] },
     { name := "n".toList, ty := .tuple [word "u8", .ref (some "a".toList) (word "str")] }] true

theorem word_wf {s : String} (h : Segs [s.toList]) : (word s).WF := ⟨h, trivial⟩

/-- The words used in the examples are identifiers. -/
theorem ex_segs (s : List Char) (h : (s.head?.all fun c => !isDig c && c ≠ '+') = true) (h0 : s ≠ [])
    (hk : s ∉ typeKeywords) : Segs [s] := by
  refine ⟨?_, hk, by simp⟩
  cases s with
  | nil => exact absurd rfl h0
  | cons c r =>
    simp only [List.head?_cons, Option.all_some, Bool.and_eq_true, Bool.not_eq_true', decide_eq_true_eq] at h
    exact h

theorem exDecl_wf : exDecl.WF := by
  have hw : ∀ s ∈ ["Clone", "Copy", "String", "T", "u8", "str"], (word s).WF := by
    intro s hs
    refine word_wf (ex_segs _ ?_ ?_ ?_) <;>
      (revert s; decide)
  refine ⟨?_, ⟨?_, ?_, ?_⟩, ?_, trivial⟩
  · intro a ha
    simp only [exDecl, List.mem_cons, List.not_mem_nil, or_false] at ha
    rcases ha with rfl | rfl | rfl
    · show "derive".toList ≠ "nserde".toList; decide
    · exact ⟨by simp, fun o ho => by
        simp only [List.mem_cons, List.not_mem_nil, or_false] at ho
        rcases ho with rfl | rfl <;> trivial⟩
    · exact ⟨by simp, fun o ho => by
        simp only [List.mem_cons, List.not_mem_nil, or_false] at ho
        subst ho; trivial⟩
  · intro p hp
    simp only [exDecl, List.mem_cons, List.not_mem_nil, or_false] at hp
    rcases hp with rfl | rfl
    · trivial
    · refine ⟨ex_segs _ (by decide) (by decide) (by decide), by decide, by decide, ⟨hw "Clone" (by simp), trivial⟩, ?_, by simp⟩
      intro b hb
      simp only [List.mem_cons, List.not_mem_nil, or_false] at hb
      subst hb; rfl
  · show List.Pairwise _ ["a".toList, "T".toList]
    simp
  · intro w hw'
    simp only [exDecl, List.mem_cons, List.not_mem_nil, or_false] at hw'
    subst hw'
    refine ⟨by simp, ⟨hw "Copy" (by simp), trivial, trivial⟩, ?_, "T".toList, [word "Clone"], none, by simp [exDecl], rfl⟩
    intro b hb
    simp only [List.mem_cons, List.not_mem_nil, or_false] at hb
    rcases hb with rfl | rfl <;> rfl
  · intro f hf
    simp only [List.mem_cons, List.not_mem_nil, or_false] at hf
    rcases hf with rfl | rfl | rfl
    · refine ⟨?_, by decide, ex_segs _ (by decide) (by decide) (by decide), hw "String" (by simp), trivial⟩
      intro a ha
      simp only [List.mem_cons, List.not_mem_nil, or_false] at ha
      rcases ha with rfl | rfl
      · show "doc".toList ≠ "nserde".toList; decide
      · exact ⟨by simp, fun o ho => by
          simp only [List.mem_cons, List.not_mem_nil, or_false] at ho
          rcases ho with rfl | rfl <;> trivial⟩
    · refine ⟨?_, by decide, ex_segs _ (by decide) (by decide) (by decide), hw "String" (by simp), ⟨hw "T" (by simp), by decide⟩, trivial⟩
      intro a ha
      simp only [List.mem_cons, List.not_mem_nil, or_false] at ha
      subst ha
      exact ⟨by simp, fun o ho => by
        simp only [List.mem_cons, List.not_mem_nil, or_false] at ho
        subst ho; trivial⟩
    · exact ⟨by simp, by decide, hw "u8" (by simp), ⟨hw "str" (by simp), rfl⟩, trivial⟩

/-! ## C58, C59 declarations are read as written -/

/-- **C58**: a struct declaration of the supported fragment is read as written: its name, its
options, its fields in order with their names, types and options, and its generics. -/
theorem C58_derive_struct_read (s : RStruct) (h : s.WF) :
    ∃ p, Parses s.toks (.struct p) ∧ p.name = some s.name ∧ p.attributes = words s.attrs ∧
      BodyRead s.body p ∧ GenericsRead s.generics p.generics :=
  ⟨pstruct s, parse_struct h, rfl, rfl, bodyRead h, genericsRead h.2.1⟩

/-- **C59**: an enum declaration of the supported fragment is read as written: its name, its
variants in order with their names, options and contents, and its generics. -/
theorem C59_derive_enum_read (e : REnum) (h : e.WF) :
    ∃ p, Parses e.toks (.enum p) ∧ p.name = e.name ∧ Matching VariantRead e.variants p.variants ∧
      GenericsRead e.generics p.generics :=
  ⟨penum e, parse_enum h, rfl, matching_map fun v hv => variantRead (h.2.2 v hv), genericsRead h.2.1⟩

/-- What the parser returns is determined by the declaration: at most one tree. -/
theorem C58_derive_read_unique (ts : List TT) (d d' : Data) (h : Parses ts d) (h' : Parses ts d') : d = d' := by
  obtain ⟨n, h⟩ := h
  obtain ⟨n', h'⟩ := h'
  have := (h (max n n') (Nat.le_max_left _ _)).symm.trans (h' (max n n') (Nat.le_max_right _ _))
  injection this

/-- **C58**, why a private tuple field must not start with punctuation: `struct S(&'a str);` is read
as a struct with the two fields `'a` and `str`. -/
theorem C58_derive_private_ref_misread :
    ∃ p, Parses [.ident "struct".toList, .ident "S".toList,
        .group .paren [.punct '&', .punct '\'', .ident "a".toList, .ident "str".toList], .punct ';'] (.struct p) ∧
      p.fields.map (fun f => f.ty.full) = ["'a".toList, "str".toList] := by
  refine ⟨.mk (some "S".toList) false
      [.mk [] none (.mk (.lifetime "a".toList) none none none), .mk [] none (.mk (.named "str".toList) none none none)] [] [],
    ⟨9, fun n hn => ?_⟩, ?_⟩
  · obtain ⟨k, rfl⟩ : ∃ k, n = k + 9 := ⟨n - 9, by omega⟩
    rfl
  · rfl

/-- **C58**, why a public tuple field must not start with a parenthesis:
`struct S(pub (u8, u8), u32);` makes the macro panic. -/
theorem C58_derive_pub_tuple_panics : ∃ N, ∀ n, N ≤ n →
    parseItem n [.ident "struct".toList, .ident "S".toList,
      .group .paren [.ident "pub".toList, .group .paren [.ident "u8".toList, .punct ',', .ident "u8".toList],
        .punct ',', .ident "u32".toList], .punct ';'] = .panic := by
  refine ⟨9, fun n hn => ?_⟩
  obtain ⟨k, rfl⟩ : ∃ k, n = k + 9 := ⟨n - 9, by omega⟩
  rfl

/-- **C58**, why there is no restricted visibility on items: `pub(crate) struct S;` makes the macro
panic. -/
theorem C58_derive_pub_crate_panics : ∃ N, ∀ n, N ≤ n →
    parseItem n [.ident "pub".toList, .group .paren [.ident "crate".toList], .ident "struct".toList,
      .ident "S".toList, .punct ';'] = .panic := by
  refine ⟨9, fun n hn => ?_⟩
  obtain ⟨k, rfl⟩ : ∃ k, n = k + 9 := ⟨n - 9, by omega⟩
  rfl

/-- **C59**, why a discriminant is a single token: `enum E { A = -1 }` makes the macro panic. -/
theorem C59_derive_negative_discriminant_panics : ∃ N, ∀ n, N ≤ n →
    parseItem n [.ident "enum".toList, .ident "E".toList,
      .group .brace [.ident "A".toList, .punct '=', .punct '-', .lit "1".toList]] = .panic := by
  refine ⟨9, fun n hn => ?_⟩
  obtain ⟨k, rfl⟩ : ∃ k, n = k + 9 := ⟨n - 9, by omega⟩
  rfl

/-- The example declaration meets the hypothesis; the tree says what is written there. -/
example : ∃ p, Parses exDecl.toks (.struct p) ∧ p.name = some "S".toList ∧
    p.fields.map PField.name = [some "kind".toList, some "m".toList, some "n".toList] ∧
    p.fields.map (fun f => f.ty.full) =
      ["Option<String>".toList, "HashMap<String,[T;4]>".toList, "(u8, &'a str)".toList] :=
  ⟨pstruct exDecl, parse_struct exDecl_wf, rfl, rfl, by decide +kernel⟩

/-- An enum: `enum E { #[nserde(rename = "a")] A, B(u8, String), C { x: T, }, D = 4, }`. -/
def exEnumDecl : REnum where
  name := "E".toList
  generics := { params := [.type "T".toList [] (some (word "u8"))], ptrail := true }
  variants :=
    [{ attrs := [.nserde .paren [.val "rename".toList (.str "a".toList)]], name := "A".toList, shape := .unit },
     { name := "B".toList, shape := .tuple [word "u8", word "String"] },
     { name := "C".toList, shape := .named [{ name := "x".toList, ty := word "T" }] true },
     { name := "D".toList, shape := .disc (.lit "4".toList) }]
  trail := true

theorem exEnumDecl_wf : exEnumDecl.WF := by
  have hw : ∀ s ∈ ["String", "T", "u8"], (word s).WF := by
    intro s hs
    refine word_wf (ex_segs _ ?_ ?_ ?_) <;>
      (revert s; decide)
  refine ⟨by simp [exEnumDecl], ⟨?_, ?_, by simp [exEnumDecl]⟩, ?_⟩
  · intro p hp
    simp only [exEnumDecl, List.mem_cons, List.not_mem_nil, or_false] at hp
    subst hp
    refine ⟨ex_segs _ (by decide) (by decide) (by decide), by decide, by decide, trivial, by simp, ?_⟩
    intro t ht
    obtain rfl : word "u8" = t := by simpa using ht
    exact hw "u8" (by simp)
  · show List.Pairwise _ ["T".toList]
    simp
  · intro v hv
    simp only [exEnumDecl, List.mem_cons, List.not_mem_nil, or_false] at hv
    rcases hv with rfl | rfl | rfl | rfl
    · refine ⟨?_, trivial⟩
      intro a ha
      simp only [List.mem_cons, List.not_mem_nil, or_false] at ha
      subst ha
      exact ⟨by simp, fun o ho => by
        simp only [List.mem_cons, List.not_mem_nil, or_false] at ho
        subst ho; trivial⟩
    · exact ⟨by simp, ⟨hw "u8" (by simp), hw "String" (by simp), trivial⟩, by simp⟩
    · refine ⟨by simp, ?_⟩
      intro f hf
      simp only [List.mem_cons, List.not_mem_nil, or_false] at hf
      subst hf
      exact ⟨by simp, by decide, hw "T" (by simp)⟩
    · exact ⟨by simp, trivial⟩

example : ∃ p, Parses exEnumDecl.toks (.enum p) ∧ p.name = "E".toList ∧
    p.variants.map PField.name = [some "A".toList, some "B".toList, some "C".toList, some "D".toList] :=
  ⟨penum exEnumDecl, parse_enum exEnumDecl_wf, rfl, rfl⟩

/-! ## C56 options and look-ups -/

theorem firstVal_eq_some (key : List Char) (os : List ROpt) (v : List Char) : firstVal key os = some v ↔
    ∃ pre l post, os = pre ++ .val key l :: post ∧ l.value = v ∧ ∀ o ∈ pre, ∀ m, o ≠ .val key m := by
  induction os with
  | nil => simp [firstVal]
  | cons o os ih =>
    have step : (∀ m, o ≠ .val key m) → firstVal key (o :: os) = firstVal key os := by
      intro h
      cases o with
      | flag n => simp [firstVal]
      | val n m =>
        have : n ≠ key := fun e => h m (by rw [e])
        simp [firstVal, this]
    by_cases ho : ∃ m, o = .val key m
    · obtain ⟨m, rfl⟩ := ho
      constructor
      · intro h
        exact ⟨[], m, os, rfl, by simpa [firstVal] using h, by simp⟩
      · rintro ⟨pre, l, post, h, hv, hp⟩
        cases pre with
        | nil =>
          simp only [List.nil_append, List.cons.injEq, ROpt.val.injEq, true_and] at h
          simp [firstVal, h.1, hv]
        | cons x pre =>
          simp only [List.cons_append, List.cons.injEq] at h
          exact absurd h.1.symm (hp x (by simp) m)
    · have ho' : ∀ m, o ≠ .val key m := fun m e => ho ⟨m, e⟩
      rw [step ho', ih]
      constructor
      · rintro ⟨pre, l, post, h, hv, hp⟩
        refine ⟨o :: pre, l, post, by simp [h], hv, ?_⟩
        intro x hx m
        rcases List.mem_cons.1 hx with rfl | hx
        · exact ho' m
        · exact hp x hx m
      · rintro ⟨pre, l, post, h, hv, hp⟩
        cases pre with
        | nil => simp only [List.nil_append, List.cons.injEq] at h; exact absurd h.1 (ho' l)
        | cons x pre =>
          simp only [List.cons_append, List.cons.injEq] at h
          exact ⟨pre, l, post, h.2, hv, fun y hy => hp y (by simp [hy])⟩

/-- The look-ups that return a value, with the name of their option. -/
def valueLookups : List (String × (List Attr → Option (List Char))) :=
  [("proxy", attrsProxy), ("rename", attrsRename), ("default_with", attrsDefaultWith), ("crate", attrsCrate)]

/-- The look-ups that return whether an option is present. -/
def flagLookups : List (String × (List Attr → Bool)) :=
  [("transparent", attrsTransparent), ("skip", attrsSkip), ("serialize_none_as_null", attrsNoneAsNull)]

/-- **C56**: of the options written on an item, field or variant (`optsOf as`, in the order
written), `rename`, `proxy`, `crate` and `default_with` are the value of the first option
`name = value` of that name, and absent when there is none. -/
theorem C56_derive_first_value (as : List RAttr) (name : String) (look : List Attr → Option (List Char))
    (h : (name, look) ∈ valueLookups) (v : List Char) :
    (look (words as) = some v ↔
      ∃ pre l post, optsOf as = pre ++ .val name.toList l :: post ∧ l.value = v ∧
        ∀ o ∈ pre, ∀ m, o ≠ .val name.toList m) ∧
    (look (words as) = none ↔ ∀ l, ROpt.val name.toList l ∉ optsOf as) := by
  have hl : look = attrValue name.toList := by
    simp only [valueLookups, List.mem_cons, List.not_mem_nil, or_false, Prod.mk.injEq] at h
    rcases h with ⟨rfl, rfl⟩ | ⟨rfl, rfl⟩ | ⟨rfl, rfl⟩ | ⟨rfl, rfl⟩ <;> rfl
  subst hl
  rw [words, attrValue_words]
  refine ⟨firstVal_eq_some _ _ v, ?_⟩
  rw [firstVal, List.head?_eq_none_iff, List.filterMap_eq_nil_iff]
  constructor
  · intro hx l hm
    have := hx _ hm
    simp at this
  · intro hx o ho
    cases o with
    | flag n => rfl
    | val n l =>
      have : n ≠ name.toList := fun e => hx l (e ▸ ho)
      simp [this]

/-- **C56**: `skip`, `transparent` and `serialize_none_as_null` are set exactly when the option is
written. -/
theorem C56_derive_flag (as : List RAttr) (name : String) (look : List Attr → Bool)
    (h : (name, look) ∈ flagLookups) :
    look (words as) = true ↔ ROpt.flag name.toList ∈ optsOf as := by
  have hl : look = attrFlag name.toList := by
    simp only [flagLookups, List.mem_cons, List.not_mem_nil, or_false, Prod.mk.injEq] at h
    rcases h with ⟨rfl, rfl⟩ | ⟨rfl, rfl⟩ | ⟨rfl, rfl⟩ <;> rfl
  subst hl
  rw [words, attrFlag_words, hasFlag, List.any_eq_true]
  constructor
  · rintro ⟨o, ho, hx⟩
    cases o with
    | flag n => obtain rfl : n = name.toList := by simpa using hx
                exact ho
    | val n v => simp at hx
  · intro hx
    exact ⟨_, hx, by simp⟩

/-- **C56**: the default is that of the first option `default` or `default = value`. -/
theorem C56_derive_first_default (as : List RAttr) :
    (attrsDefault (words as) = none ↔
      ROpt.flag "default".toList ∉ optsOf as ∧ ∀ l, ROpt.val "default".toList l ∉ optsOf as) ∧
    (∀ pre o post, optsOf as = pre ++ o :: post →
      (ROpt.flag "default".toList ∉ pre ∧ ∀ l, ROpt.val "default".toList l ∉ pre) →
      (o = .flag "default".toList → attrsDefault (words as) = some none) ∧
      (∀ l, o = .val "default".toList l → attrsDefault (words as) = some (some l.value))) := by
  rw [words, attrsDefault_words]
  unfold firstDefault
  generalize "default".toList = key
  generalize hg : (fun o : ROpt =>
      match o with
      | .flag n => if n = key then some (none : Option (List Char)) else none
      | .val n v => if n = key then some (some v.value) else none) = g
  have hnil : ∀ os : List ROpt, os.filterMap g = [] ↔
      ROpt.flag key ∉ os ∧ ∀ l, ROpt.val key l ∉ os := by
    intro os
    subst hg
    rw [List.filterMap_eq_nil_iff]
    constructor
    · intro hx
      refine ⟨fun hm => by have := hx _ hm; simp at this, fun l hm => by have := hx _ hm; simp at this⟩
    · rintro ⟨h1, h2⟩ o ho
      cases o with
      | flag n =>
        have : n ≠ key := fun e => h1 (e ▸ ho)
        simp [this]
      | val n l =>
        have : n ≠ key := fun e => h2 l (e ▸ ho)
        simp [this]
  refine ⟨by rw [List.head?_eq_none_iff]; exact hnil _, ?_⟩
  intro pre o post h hp
  rw [h, List.filterMap_append, (hnil pre).2 hp, List.nil_append]
  refine ⟨?_, ?_⟩
  · rintro rfl; subst hg; simp
  · rintro l rfl; subst hg; simp

/-- **C56**: the options the generators look at are the options written, for the item, every field
and every variant, in order. -/
theorem C56_derive_options_read (s : RStruct) (h : s.WF) : ∃ p, Parses s.toks (.struct p) ∧
    p.attributes = (optsOf s.attrs).map ROpt.words ∧
    p.fields.map PField.attributes =
      (match s.body with
       | .unit => []
       | .tuple fs _ => fs.map fun f => (optsOf f.attrs).map ROpt.words
       | .named fs _ => fs.map fun f => (optsOf f.attrs).map ROpt.words) := by
  refine ⟨pstruct s, parse_struct h, rfl, ?_⟩
  cases hb : s.body <;> simp [pstruct, hb, pbody, PStruct.fields, pfield, ptfield, PField.attributes, words]

theorem C56_derive_variant_options_read (e : REnum) (h : e.WF) : ∃ p, Parses e.toks (.enum p) ∧
    p.variants.map PField.attributes = e.variants.map fun v => (optsOf v.attrs).map ROpt.words := by
  refine ⟨penum e, parse_enum h, ?_⟩
  simp [penum, pvariant, PField.attributes, words]

/-- In the example, `crate` is written twice and the first one counts. -/
example : attrsCrate (words exDecl.attrs) = some "ns".toList :=
  ((C56_derive_first_value exDecl.attrs "crate" attrsCrate (by simp [valueLookups]) _).1).2
    ⟨[.flag "default".toList], .str "ns".toList, [.val "crate".toList (.str "other".toList)], rfl, rfl, by simp⟩

example : attrsDefault (words exDecl.attrs) = some none :=
  ((C56_derive_first_default exDecl.attrs).2 [] _ _ rfl (by simp)).1 rfl

example : attrsSkip (words exDecl.attrs) = false := by decide +kernel

/-! ## C57 container options -/

/-- **C57**: the `crate` and `proxy` options on a struct are honoured. -/
theorem C57_derive_struct_container (s : RStruct) (h : s.WF) : ∃ p, Parses s.toks (.struct p) ∧
    crateName (.struct p) = (firstVal "crate".toList (optsOf s.attrs)).getD "nanoserde".toList ∧
    itemProxy (.struct p) = firstVal "proxy".toList (optsOf s.attrs) := by
  refine ⟨pstruct s, parse_struct h, ?_, ?_⟩
  · simp only [crateName, Data.attributes, pstruct, PStruct.attributes, words, attrsCrate, attrValue_words]
  · simp only [itemProxy, Data.attributes, pstruct, PStruct.attributes, words, attrsProxy, attrValue_words]

/-- **C57**: on an enum no container option has any effect: whatever `crate` or `proxy` it carries,
the generated code uses the crate name `nanoserde` and no proxy. -/
theorem C57_derive_enum_container_dropped (e : REnum) (h : e.WF) : ∃ p, Parses e.toks (.enum p) ∧
    crateName (.enum p) = "nanoserde".toList ∧ itemProxy (.enum p) = none :=
  ⟨penum e, parse_enum h, rfl, rfl⟩

example : ∃ p, Parses exDecl.toks (.struct p) ∧ crateName (.struct p) = "ns".toList := by
  obtain ⟨p, hp, hc, _⟩ := C57_derive_struct_container exDecl exDecl_wf
  exact ⟨p, hp, by rw [hc]; decide +kernel⟩

/-- An enum with `#[nserde(proxy = "P", crate = "c")]`. -/
def exDProxy : REnum :=
  { exEnumDecl with attrs := [.nserde .paren [.val "proxy".toList (.str "P".toList), .val "crate".toList (.str "c".toList)]] }

example : ∃ p, Parses exDProxy.toks (.enum p) ∧ itemProxy (.enum p) = none ∧
    firstVal "proxy".toList (optsOf exDProxy.attrs) = some "P".toList := by
  have hw : exDProxy.WF := by
    refine ⟨?_, exEnumDecl_wf.2⟩
    intro a ha
    simp only [exDProxy, List.mem_cons, List.not_mem_nil, or_false] at ha
    subst ha
    exact ⟨by simp, fun o ho => by
      simp only [List.mem_cons, List.not_mem_nil, or_false] at ho
      rcases ho with rfl | rfl <;> trivial⟩
  obtain ⟨p, hp, _, hx⟩ := C57_derive_enum_container_dropped exDProxy hw
  exact ⟨p, hp, hx, by decide +kernel⟩

/-! ## C60 default expressions -/

/-- **C60**: the default expression of a field, in JSON: that of the first `default` option, or the
call of the `default_with` function; a text default for `String` and types with a `String`
component. -/
theorem C60_derive_json_default (f : RField) (p : PField) (h : FieldRead f p) :
    jsonDefault p = defaultText RTy.mentionsString f.opts f.ty := jsonDefault_read h.1 h.2.2

/-- **C60**: in RON a `default = ".."` is text for `String` only. -/
theorem C60_derive_ron_default (f : RField) (p : PField) (h : FieldRead f p) :
    ronDefault p = defaultText (fun t => t.head = "String".toList) f.opts f.ty := ronDefault_read h.1 h.2.2

/-- `#[nserde(default = "x")] kind: Option<String>` is `Some("x".to_string())` in JSON, but
`Some(x)`, with a variable `x`, in RON. -/
example (p : PField) (h : FieldRead ⟨[.nserde .paren [.val "default".toList (.str "x".toList)]], .pub,
      "kind".toList, .path false ["Option".toList] [word "String"]⟩ p) :
    jsonDefault p = some "Some(\"x\".to_string())".toList ∧ ronDefault p = some "Some(x)".toList := by
  rw [C60_derive_json_default _ p h, C60_derive_ron_default _ p h]
  exact ⟨by decide +kernel, by decide +kernel⟩

/-! ## C61 headers -/

/-- **C61**: the generated `impl<..> krate::Trait for Item<..>` lists the parameters in order, each
type parameter with the bounds written on it and in the `where` clause followed by the trait. -/
theorem C61_derive_struct_header (s : RStruct) (h : s.WF) : ∃ p, Parses s.toks (.struct p) ∧
    ∀ trait krate, boundsStrings p.generics trait krate = s.generics.header trait krate :=
  ⟨pstruct s, parse_struct h, genericsRead h.2.1⟩

theorem C61_derive_enum_header (e : REnum) (h : e.WF) : ∃ p, Parses e.toks (.enum p) ∧
    ∀ trait krate, boundsStrings p.generics trait krate = e.generics.header trait krate :=
  ⟨penum e, parse_enum h, genericsRead h.2.1⟩

example : ∃ p, Parses exDecl.toks (.struct p) ∧
    boundsStrings p.generics "SerBin".toList "ns".toList =
      ("<'a:, T: Clone + Copy + 'a + ns::SerBin, >".toList, "<'a, T, >".toList) := by
  obtain ⟨p, hp, hh⟩ := C61_derive_struct_header exDecl exDecl_wf
  exact ⟨p, hp, by rw [hh]; decide +kernel⟩

/-- **C61**, why there are no `const` parameters: `struct S<const N: usize> {}` gets the header
`<const N: usize + nanoserde::SerBin, >`, which is not Rust. -/
theorem C61_derive_const_header : ∃ p, Parses [.ident "struct".toList, .ident "S".toList, .punct '<',
      .ident "const".toList, .ident "N".toList, .punct ':', .ident "usize".toList, .punct '>', .group .brace []] (.struct p) ∧
    boundsStrings p.generics "SerBin".toList "nanoserde".toList =
      ("<const N: usize + nanoserde::SerBin, >".toList, "<N, >".toList) := by
  refine ⟨.mk (some "S".toList) true [] [] [.const "N".toList (.mk (.named "usize".toList) none none none) none],
    ⟨9, fun n hn => ?_⟩, ?_⟩
  · obtain ⟨k, rfl⟩ : ∃ k, n = k + 9 := ⟨n - 9, by omega⟩
    rfl
  · decide +kernel

/-- **C61**, why every type of a `where` clause is a parameter: `struct S<T> where U: Clone {}` gets
the header `<T: nanoserde::SerBin, U: Clone + nanoserde::SerBin, >`, in which the type `U` became a
parameter. -/
theorem C61_derive_where_only_header : ∃ p, Parses [.ident "struct".toList, .ident "S".toList, .punct '<',
      .ident "T".toList, .punct '>', .ident "where".toList, .ident "U".toList, .punct ':', .ident "Clone".toList,
      .group .brace []] (.struct p) ∧
    boundsStrings p.generics "SerBin".toList "nanoserde".toList =
      ("<T: nanoserde::SerBin, U: Clone + nanoserde::SerBin, >".toList, "<T, U, >".toList) := by
  refine ⟨.mk (some "S".toList) true [] [] [.generic "T".toList none [],
      .whereBounded "U".toList [.mk (.named "Clone".toList) none none none]], ⟨9, fun n hn => ?_⟩, ?_⟩
  · obtain ⟨k, rfl⟩ : ∃ k, n = k + 9 := ⟨n - 9, by omega⟩
    rfl
  · decide +kernel

/-! ## C62 the definition a declaration stands for -/

/-- **C62**: from the tokens of a struct declaration the generators arrive at the definition read
off the declaration: the fields in order, each with its name, type, rename, skip, default, ... -/
theorem C62_derive_struct_def (N : Names) (fmt : Fmt) (s : RStruct) (h : s.WF) :
    ∃ d, Parses s.toks d ∧ elabData N fmt d = some (s.toDef N fmt) := by
  obtain ⟨p, hp, _, ha, hb, _⟩ := C58_derive_struct_read s h
  exact ⟨.struct p, hp, by rw [elabData, elabStruct_read N fmt ha hb]⟩

theorem C62_derive_enum_def (N : Names) (fmt : Fmt) (e : REnum) (h : e.WF) :
    ∃ d, Parses e.toks d ∧ elabData N fmt d = some (e.toDef N fmt) := by
  obtain ⟨p, hp, _, hv, _⟩ := C59_derive_enum_read e h
  exact ⟨.enum p, hp, elabEnum_read N fmt hv⟩

/-- **C62**, together with C08: the bytes of a declared struct are those of its fields that are
not marked `skip`, in the order of the declaration. -/
theorem C62_derive_bin_bytes (N : Names) (s : RStruct) (h : s.WF) (fs : List RField) (tr : Bool)
    (hb : s.body = .named fs tr) : ∃ d, Parses s.toks d ∧
    ∀ (env : Env) (i : Nat), env.defs[i]? = elabData N .bin d → ∀ vs : List Val,
      serializeBin env (.named i) (.struct vs) =
        (List.zipWith (fun f v => if ROpt.flag "skip".toList ∈ optsOf f.attrs then []
          else serializeBin env (fieldTy N .bin (optsOf f.attrs) f.ty) v) fs vs).flatten := by
  obtain ⟨d, hd, he⟩ := C62_derive_struct_def N .bin s h
  refine ⟨d, hd, fun env i hi vs => ?_⟩
  rw [he, RStruct.toDef, hb] at hi
  rw [C08_bin_struct_layout i _ _ _ hi vs]
  clear hi hb he hd
  induction fs generalizing vs with
  | nil => simp
  | cons f fs ih =>
    cases vs with
    | nil => simp
    | cons v vs =>
      have : hasFlag "skip".toList f.opts = true ↔ ROpt.flag "skip".toList ∈ optsOf f.attrs := by
        have := C56_derive_flag f.attrs "skip" attrsSkip (by simp [flagLookups])
        rw [← this, words, attrsSkip, attrFlag_words]; rfl
      rw [List.map_cons, List.zip_cons_cons, List.zipWith_cons_cons, List.flatten_cons, ← ih, List.filter_cons]
      by_cases hsk : ROpt.flag "skip".toList ∈ optsOf f.attrs
      · rw [if_pos hsk, if_neg (by
          have hs : (RField.toDef N .bin f).skip = true := this.2 hsk
          rw [hs]; decide)]; rfl
      · rw [if_neg hsk, if_pos (by
          have hs : (RField.toDef N .bin f).skip = false := (Bool.not_eq_true _).mp (mt this.1 hsk)
          rw [hs]; rfl)]; rfl

example (N : Names) : ∃ d, Parses exDecl.toks d ∧ elabData N .json d = some (exDecl.toDef N .json) :=
  C62_derive_struct_def N .json exDecl exDecl_wf

example (N : Names) : ∃ d, Parses exEnumDecl.toks d ∧ elabData N .ron d = some (exEnumDecl.toDef N .ron) :=
  C62_derive_enum_def N .ron exEnumDecl exEnumDecl_wf

end NS
