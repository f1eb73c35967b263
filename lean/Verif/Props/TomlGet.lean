import Verif.Model.TomlGet
import Verif.Props.Toml
/-! # Property C84: looking up what was parsed -/
namespace NS
variable {o : TomlOps}

theorem tomlAt_iff {m : TMap} (h : m.Pairwise (fun a b => a.1 < b.1)) (k : List Char) (v : Toml) :
    tomlAt m k = some v ↔ (k, v) ∈ m :=
  tGet_mem (List.Pairwise.imp (fun h => (strLt_iff _ _).2 h) h) k v

theorem opt_ext {α : Type} {a b : Option α} (h : ∀ v, a = some v ↔ b = some v) : a = b := by
  cases a with
  | none => cases b with
    | none => rfl
    | some v => exact ((h v).2 rfl)
  | some v => exact ((h v).1 rfl).symm

theorem tables_get {α β : Type} {R : α → β → Prop} {as : List α} {bs : List β} (h : Matching R as bs) (j : Nat) :
    (as[j]? = none ∧ bs[j]? = none) ∨ ∃ a b, as[j]? = some a ∧ bs[j]? = some b ∧ R a b := by
  induction h generalizing j with
  | nil => left; simp
  | cons hr _ ih =>
    cases j with
    | zero => right; exact ⟨_, _, rfl, rfl, hr⟩
    | succ j => simpa using ih j

/-- **C84**: `parsed[key]` is the value last assigned to `key` (written with its section) before the first
`[[..]]` header, and panics exactly if there is none. -/
theorem C84_toml_lookup {doc : List Stmt} {txt : List Char} (h : TText o doc txt) {m : TMap}
    (hm : TomlOk (fun n => parseToml o n txt) m) {k : List Char} (hk : k ∉ (tables doc).map Prod.fst) :
    tomlAt m k = lastAssigned k (assigns [] doc) := by
  obtain ⟨m', h1, h2, h3⟩ := C50_toml_tables h fun hc => toml_ok_not_panic hm ((C48_toml_documents h).1.2 hc)
  cases toml_unique hm h1
  exact opt_ext fun v => (tomlAt_iff h2 k v).trans ((h3 k).1 hk v)

/-- **C84**: `parsed[name][j][key]` is the value last assigned to `key` under the `j`-th (from 0) header
`[[name]]`; it panics exactly if there are not so many headers or nothing is assigned to `key` there. -/
theorem C84_toml_table_lookup {doc : List Stmt} {txt : List Char} (h : TText o doc txt) {m : TMap}
    (hm : TomlOk (fun n => parseToml o n txt) m) {name : List Char} (hk : name ∈ (tables doc).map Prod.fst) (j : Nat) (key : List Char) :
    (((tomlAt m name).bind (Toml.index j)).bind fun t => tomlAt t key) =
      (((tables doc).filter fun t => t.1 == name)[j]?).bind fun t => lastAssigned key t.2 := by
  obtain ⟨m', h1, h2, h3⟩ := C50_toml_tables h fun hc => toml_ok_not_panic hm ((C48_toml_documents h).1.2 hc)
  cases toml_unique hm h1
  obtain ⟨ts, h4, h5⟩ := (h3 name).2 hk
  have h6 : tomlAt m name = some (.array ts) := (tomlAt_iff h2 _ _).2 ((h4 _).2 rfl)
  rw [h6, Option.bind_some, Toml.index]
  rcases tables_get h5 j with ⟨a, b⟩ | ⟨t, as, a, b, hh⟩
  · rw [List.getElem?_map] at b
    rw [a]
    cases hq : ((tables doc).filter fun t => t.1 == name)[j]? with
    | none => rfl
    | some q => rw [hq] at b; cases b
  · rw [List.getElem?_map] at b
    rw [a]
    cases hq : ((tables doc).filter fun t => t.1 == name)[j]? with
    | none => rw [hq] at b; cases b
    | some q =>
      rw [hq] at b
      simp only [Option.map_some, Option.some.injEq] at b
      simp only [Option.bind_some]
      rw [b]
      exact opt_ext fun v => (tomlAt_iff hh.1 key v).trans (hh.2 key v)

/-- **C84**: the number of headers `[[name]]` is what `parsed[name].arr().len()` returns. -/
theorem C84_toml_arr_len {doc : List Stmt} {txt : List Char} (h : TText o doc txt) {m : TMap}
    (hm : TomlOk (fun n => parseToml o n txt) m) {name : List Char} (hk : name ∈ (tables doc).map Prod.fst) :
    (((tomlAt m name).bind Toml.asArr).map List.length) = some ((tables doc).filter fun t => t.1 == name).length := by
  obtain ⟨m', h1, h2, h3⟩ := C50_toml_tables h fun hc => toml_ok_not_panic hm ((C48_toml_documents h).1.2 hc)
  cases toml_unique hm h1
  obtain ⟨ts, h4, h5⟩ := (h3 name).2 hk
  have h6 : tomlAt m name = some (.array ts) := (tomlAt_iff h2 _ _).2 ((h4 _).2 rfl)
  have h7 : ∀ {as : List TMap} {bs : List (List (List Char × Toml))}, Matching Holding as bs → as.length = bs.length := by
    intro as bs h
    induction h with
    | nil => rfl
    | cons _ _ ih => simp [ih]
  rw [h6]
  simp [Toml.asArr, h7 h5]

/-- **C84**: on every value exactly one of the accessors `num`, `str`, `boolean`, `date`, `arr`,
`simple_arr` returns; the others panic.  What it returns determines the value. -/
theorem C84_toml_one_accessor (v : Toml) :
    ([v.asNum.isSome, v.asStr.isSome, v.asBool.isSome, v.asDate.isSome, v.asArr.isSome, v.asSimpleArr.isSome].filter id).length = 1 ∧
    ∀ w : Toml, w.asNum = v.asNum → w.asStr = v.asStr → w.asBool = v.asBool → w.asDate = v.asDate → w.asArr = v.asArr →
      w.asSimpleArr = v.asSimpleArr → w = v := by
  refine ⟨by cases v <;> rfl, fun w => ?_⟩
  cases v <;> cases w <;> simp [Toml.asNum, Toml.asStr, Toml.asBool, Toml.asDate, Toml.asArr, Toml.asSimpleArr]

/-- **C84**: each accessor returns the contents of its kind of value, unchanged and in order, and panics (`none`) on every other. -/
theorem C84_toml_accessors (v : Toml) :
    (∀ x, v.asNum = some x ↔ v = .num x) ∧ (∀ s, v.asStr = some s ↔ v = .str s) ∧ (∀ b, v.asBool = some b ↔ v = .bool b) ∧
    (∀ d, v.asDate = some d ↔ v = .date d) ∧ (∀ ts, v.asArr = some ts ↔ v = .array ts) ∧
    (∀ vs, v.asSimpleArr = some vs ↔ v = .simpleArray vs) ∧ (∀ i t, v.index i = some t ↔ ∃ ts, v = .array ts ∧ ts[i]? = some t) := by
  refine ⟨?_, ?_, ?_, ?_, ?_, ?_, ?_⟩ <;> cases v <;>
    simp [Toml.asNum, Toml.asStr, Toml.asBool, Toml.asDate, Toml.asArr, Toml.asSimpleArr, Toml.index]

theorem exToml_noclash : ¬ Clashes exTomlDoc := by
  rintro ⟨n, as, h1, v, h2⟩
  simp only [exTomlDoc, tables, assigns, List.mem_cons, List.not_mem_nil, or_false, Prod.mk.injEq] at h1 h2
  rcases h1 with ⟨rfl, _⟩ | ⟨rfl, _⟩ <;> rcases h2 with ⟨h2, _⟩ | ⟨h2, _⟩ <;> revert h2 <;> decide

/-- C84: in the example document `parsed["s.k"].simple_arr()` returns, `parsed["k"]` panics,
`parsed["t"][0]["a"].num()` is -3, `parsed["t"][1]["a"]` and `parsed["t"][2]` panic. -/
example : ∃ m, TomlOk (fun n => parseToml toyToml n exToml) m ∧
    ((tomlAt m (chars "s.k")).bind Toml.asSimpleArr) = some [.num (toyToml.ofU64 2), .str (chars "x")] ∧
    tomlAt m (chars "k") = none ∧
    ((((tomlAt m (chars "t")).bind (Toml.index 0)).bind fun t => tomlAt t (chars "a")).bind Toml.asNum) = some (toyToml.ofI64 (-3)) ∧
    (((tomlAt m (chars "t")).bind (Toml.index 1)).bind fun t => tomlAt t (chars "a")) = none ∧
    (((tomlAt m (chars "t")).bind (Toml.index 2)).bind fun t => tomlAt t (chars "a")) = none ∧
    (((tomlAt m (chars "t")).bind Toml.asArr).map List.length) = some 2 := by
  obtain ⟨m, hm⟩ := (C48_toml_documents exToml_text).2.2 exToml_noclash
  have ht : chars "t" ∈ (tables exTomlDoc).map Prod.fst := by simp [exTomlDoc, tables]
  have hn : ∀ k, k ≠ chars "t" → k ∉ (tables exTomlDoc).map Prod.fst := by
    intro k hk; simp [exTomlDoc, tables, hk]
  refine ⟨m, hm, ?_, ?_, ?_, ?_, ?_, ?_⟩
  · rw [C84_toml_lookup exToml_text hm (hn _ (by decide))]
    simp [exTomlDoc, lastAssigned, assigns, qualified, chars, Toml.asSimpleArr]
  · rw [C84_toml_lookup exToml_text hm (hn _ (by decide))]
    simp [exTomlDoc, lastAssigned, assigns, qualified, chars]
  · rw [C84_toml_table_lookup exToml_text hm ht]
    simp [exTomlDoc, tables, lastAssigned, assigns, qualified, Toml.asNum]
  · rw [C84_toml_table_lookup exToml_text hm ht]
    simp [exTomlDoc, tables, lastAssigned, assigns]
  · rw [C84_toml_table_lookup exToml_text hm ht]
    simp [exTomlDoc, tables]
  · rw [C84_toml_arr_len exToml_text hm ht]
    simp [exTomlDoc, tables]

end NS
