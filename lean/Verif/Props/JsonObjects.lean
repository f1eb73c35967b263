import Verif.Lemmas.JsonMissing
import Verif.Lemmas.JsonRender
import Verif.Props.JsonRound
/-! # Properties C25-C28: members of JSON objects

`ms` are the members of a JSON object in their order, `txt` any text of that object (any layout,
any spelling of strings and numbers, with or without a trailing comma `tr`). -/
namespace NS
variable {env : Env} {fl : FloatOps}

/-- The meaning of an object as a derived struct, from which the properties below follow: the object
is accepted exactly if its members are readable, and then field `i` has the value of the last member
with its name, or its default. -/
theorem C25_json_struct_meaning (hw : ProgWf env) (hp : Productive env) {i : Nat} {fs cd nul}
    (hd : env.defs[i]? = some (.struct fs cd nul)) (hdn : DistinctNames fs) {ms : List (JTree × JTree)} {tr : Bool}
    {txt} (hx : JText fl (.obj ms tr) txt) (v : Val) :
    Decodes (fun n => deserializeJson env fl n (.named i) txt) v ↔
      MembersReadable env fl fs ms ∧ ∃ vs, v = .struct vs ∧ vs.length = fs.length ∧
      ∀ (i : Nat) f w, fs[i]? = some f → vs[i]? = some w → FieldValue env fl cd ms f w :=
  struct_iff hw hp hd hdn hx v

theorem lastMember_distinct {ms : List (JTree × JTree)} (h : ms.Pairwise fun a b => a.1 ≠ b.1) {k J} :
    LastMember ms k J ↔ (.str k, J) ∈ ms := by
  constructor
  · rintro ⟨a, b, rfl, _⟩; simp
  · intro hm
    obtain ⟨a, b, rfl⟩ := List.append_of_mem hm
    refine ⟨a, b, rfl, fun m hm e => ?_⟩
    rw [List.pairwise_append] at h
    have := List.rel_of_pairwise_cons h.2.1 hm
    exact this e.symm

/-- **C25**: reordering the members of an object with distinct keys does not change the struct. -/
theorem C25_json_member_order (hw : ProgWf env) (hp : Productive env) {i : Nat} {fs cd nul}
    (hd : env.defs[i]? = some (.struct fs cd nul)) (hdn : DistinctNames fs) {ms ms' : List (JTree × JTree)}
    (hdist : ms.Pairwise fun a b => a.1 ≠ b.1) (hperm : ms.Perm ms') {tr tr' : Bool} {txt txt'}
    (hx : JText fl (.obj ms tr) txt) (hx' : JText fl (.obj ms' tr') txt') (v : Val) :
    Decodes (fun n => deserializeJson env fl n (.named i) txt) v ↔
    Decodes (fun n => deserializeJson env fl n (.named i) txt') v := by
  have hdist' : ms'.Pairwise fun a b => a.1 ≠ b.1 := hperm.pairwise hdist fun h => h.symm
  rw [struct_iff hw hp hd hdn hx, struct_iff hw hp hd hdn hx']
  have h1 : MembersReadable env fl fs ms ↔ MembersReadable env fl fs ms' := by
    unfold MembersReadable
    simp only [hperm.mem_iff]
    have : ms = [] ↔ ms' = [] := by
      constructor
      · rintro rfl; exact hperm.nil_eq.symm
      · rintro rfl; exact hperm.eq_nil
    rw [this]
  have h2 : ∀ f w, FieldValue env fl cd ms f w ↔ FieldValue env fl cd ms' f w := by
    intro f w
    unfold FieldValue NoMember
    simp only [lastMember_distinct hdist, lastMember_distinct hdist', hperm.mem_iff]
  simp only [h1, h2]

/-- **C26**: a member whose key is not a field's name (or that of a skipped field) is skipped,
whatever JSON value it has and wherever it stands: the outcome is that without it. -/
theorem C26_json_unknown_ignored (hw : ProgWf env) (hp : Productive env) {i : Nat} {fs cd nul}
    (hd : env.defs[i]? = some (.struct fs cd nul)) (hne : fs ≠ []) {key : List Char}
    (hk : ∀ f ∈ fs, f.skip = false → f.jsonName ≠ key) {a b : List (JTree × JTree)} {J : JTree} {tr tr' : Bool} {txt txt'}
    (hx : JText fl (.obj (a ++ (.str key, J) :: b) tr) txt) (hx' : JText fl (.obj (a ++ b) tr') txt') :
    (∀ v, Decodes (fun n => deserializeJson env fl n (.named i) txt) v ↔
      Decodes (fun n => deserializeJson env fl n (.named i) txt') v) ∧
    (Rejects (fun n => deserializeJson env fl n (.named i) txt) ↔
      Rejects (fun n => deserializeJson env fl n (.named i) txt')) ∧
    (Panics (fun n => deserializeJson env fl n (.named i) txt) ↔
      Panics (fun n => deserializeJson env fl n (.named i) txt')) := by
  have hlt : TyWf env (.named i) := def_lt hd
  have hfold : ∀ (c : List (JTree × JTree)) acc (b : List (JTree × JTree)),
      foldD (decMember (den env fl) fs) acc (c ++ b) =
        (foldD (decMember (den env fl) fs) acc c).bind fun x => foldD (decMember (den env fl) fs) x b := by
    intro c
    induction c with
    | nil => intro acc b; rfl
    | cons m c ih => intro acc b; simp only [List.cons_append, foldD, Dec.bind_assoc, ih]
  have hf : findField fs key = none := by
    unfold findField
    rw [List.findIdx?_eq_none_iff]
    intro f hf
    cases hs : f.skip with
    | true => rfl
    | false =>
      have := hk f hf hs
      simpa [Field.key, Field.jsonName] using this
  have hm : ∀ acc, decMember (den env fl) fs acc (.str key, J) = .ok acc := by
    intro acc
    unfold decMember
    simp only
    rw [if_neg (by simpa using hne), hf]
  have e : den env fl (.named i) (some (.obj (a ++ (.str key, J) :: b) tr)) =
      den env fl (.named i) (some (.obj (a ++ b) tr')) := by
    rw [den_struct hw hp hd, den_struct hw hp hd]
    simp only [decNamed]
    rw [hfold, hfold]
    congr 3
    funext x
    simp only [foldD, hm]
    rfl
  refine ⟨fun v => ?_, ?_, ?_⟩
  · rw [den_decodes hw hp hlt hx, den_decodes hw hp hlt hx', e]
  · rw [den_rejects hw hp hlt hx, den_rejects hw hp hlt hx', e]
  · rw [den_panics hw hp hlt hx, den_panics hw hp hlt hx', e]

/-- **C26** (the exception): a struct without fields: any member is an error. -/
theorem C26_json_empty_struct_rejects (hw : ProgWf env) (hp : Productive env) {i : Nat} {cd nul}
    (hd : env.defs[i]? = some (.struct [] cd nul)) {m : JTree × JTree} {ms : List (JTree × JTree)} {tr : Bool} {txt}
    (hx : JText fl (.obj (m :: ms) tr) txt) : Rejects (fun n => deserializeJson env fl n (.named i) txt) := by
  rw [den_rejects hw hp (t := .named i) (def_lt hd) hx, den_struct hw hp hd]
  have : decMember (den env fl) [] [] m = .err := by
    unfold decMember; split <;> rfl
  simp only [decNamed, List.map_nil, foldD, this]
  rfl

/-- **C27**: an absent field takes its default: if every field is present or may be absent, the
object is accepted and each absent field has its default. -/
theorem C27_json_absent_default (hw : ProgWf env) (hp : Productive env) {i : Nat} {fs cd nul}
    (hd : env.defs[i]? = some (.struct fs cd nul)) (hdn : DistinctNames fs) {ms : List (JTree × JTree)} {tr : Bool}
    {txt} (hx : JText fl (.obj ms tr) txt) (hr : MembersReadable env fl fs ms)
    (hall : ∀ f ∈ fs, NoMember ms f.jsonName → f.mayBeAbsent cd) :
    ∃ vs, Decodes (fun n => deserializeJson env fl n (.named i) txt) (.struct vs) ∧
      ∀ (j : Nat) f, fs[j]? = some f → NoMember ms f.jsonName → vs[j]? = some f.absentValue := by
  have key : ∀ f ∈ fs, ∃ w, FieldValue env fl cd ms f w ∧ (NoMember ms f.jsonName → w = f.absentValue) := by
    intro f hf
    unfold FieldValue
    by_cases hs : f.skip = true
    · exact ⟨f.absentValue, by rw [if_pos hs], fun _ => rfl⟩
    · by_cases hno : NoMember ms f.jsonName
      · exact ⟨f.absentValue, by rw [if_neg hs]; exact .inr ⟨hno, hall f hf hno, rfl⟩, fun _ => rfl⟩
      · -- there is a last member
        have : ∀ l : List (JTree × JTree), ¬ NoMember l f.jsonName → ∃ J, LastMember l f.jsonName J := by
          intro l
          induction l with
          | nil => intro h; exact absurd (fun m hm => by cases hm) h
          | cons m l ih =>
            intro h
            by_cases hl : NoMember l f.jsonName
            · by_cases hm : m.1 = .str f.jsonName
              · exact ⟨m.2, [], l, by rw [← hm]; rfl, hl⟩
              · exact absurd (fun x hx => by
                  rcases List.mem_cons.1 hx with rfl | hx
                  · exact hm
                  · exact hl x hx) h
            · obtain ⟨J, a, b, rfl, hb⟩ := ih hl
              exact ⟨J, m :: a, b, rfl, hb⟩
        obtain ⟨J, hJ⟩ := this ms hno
        have hmem : (JTree.str f.jsonName, J) ∈ ms := by obtain ⟨a, b, e, _⟩ := hJ; rw [e]; simp
        obtain ⟨w, hw'⟩ := hr.2.2 f hf (by simpa using hs) J hmem
        exact ⟨w, by rw [if_neg hs]; exact .inl ⟨J, hJ, hw'⟩, fun h => absurd h hno⟩
  have hlist : ∀ gs : List Field, (∀ f ∈ gs, f ∈ fs) → ∃ vs : List Val, vs.length = gs.length ∧
      ∀ (j : Nat) f w, gs[j]? = some f → vs[j]? = some w → FieldValue env fl cd ms f w ∧
        (NoMember ms f.jsonName → w = f.absentValue) := by
    intro gs
    induction gs with
    | nil => intro _; exact ⟨[], rfl, by simp⟩
    | cons g gs ih =>
      intro hsub
      obtain ⟨vs, h1, h2⟩ := ih fun f hf => hsub f (List.mem_cons_of_mem _ hf)
      obtain ⟨w, hw'⟩ := key g (hsub g (List.mem_cons_self ..))
      refine ⟨w :: vs, by simp [h1], fun j f x hj hx => ?_⟩
      cases j with
      | zero => simp at hj hx; subst hj; subst hx; exact hw'
      | succ j => exact h2 j f x (by simpa using hj) (by simpa using hx)
  obtain ⟨vs, h1, h2⟩ := hlist fs fun _ h => h
  refine ⟨vs, (struct_iff hw hp hd hdn hx _).2 ⟨hr, vs, rfl, h1, fun j f w hj hv => (h2 j f w hj hv).1⟩, fun j f hj hno => ?_⟩
  have hlt : j < vs.length := by rw [h1]; exact (List.getElem?_eq_some_iff.1 hj).1
  rw [List.getElem?_eq_getElem hlt]
  rw [(h2 j f _ hj (List.getElem?_eq_getElem hlt)).2 hno]

/-- **C27**: in particular an absent `Option` field without a `default` attribute is `None`. -/
theorem C27_json_absent_option (hw : ProgWf env) (hp : Productive env) {i : Nat} {fs cd nul}
    (hd : env.defs[i]? = some (.struct fs cd nul)) (hdn : DistinctNames fs) {ms : List (JTree × JTree)} {tr : Bool}
    {txt} (hx : JText fl (.obj ms tr) txt) {vs : List Val}
    (h : Decodes (fun n => deserializeJson env fl n (.named i) txt) (.struct vs)) {j : Nat} {f : Field}
    (hj : fs[j]? = some f) (hno : NoMember ms f.jsonName) (hattr : f.dfltAttr = none)
    (hdef : f.tyDefault = .none) : vs[j]? = some .none := by
  obtain ⟨hr, ws, e, h1, h2⟩ := (struct_iff hw hp hd hdn hx _).1 h
  injection e with e
  subst e
  have hlt : j < vs.length := by rw [h1]; exact (List.getElem?_eq_some_iff.1 hj).1
  have hv := h2 j f _ hj (List.getElem?_eq_getElem hlt)
  rw [List.getElem?_eq_getElem hlt]
  have hab : f.absentValue = .none := by simp [Field.absentValue, hattr, hdef]
  unfold FieldValue at hv
  split at hv
  · rw [hv, hab]
  · rcases hv with ⟨J, ⟨a, b, e, _⟩, _⟩ | ⟨_, _, hv⟩
    · exact absurd rfl (hno (.str f.jsonName, J) (by rw [e]; simp))
    · rw [hv, hab]

/-- **C27**: if a field that may not be absent has no member, the error is `MissingKey` with the
field's name (the first such field in declaration order). -/
theorem C27_json_missing_key (hw : ProgWf env) (hp : Productive env) {i : Nat} {fs cd nul}
    (hd : env.defs[i]? = some (.struct fs cd nul)) (hdn : DistinctNames fs) {ms : List (JTree × JTree)} {tr : Bool}
    {txt} (hx : JText fl (.obj ms tr) txt) (hr : MembersReadable env fl fs ms) {j : Nat} {f : Field}
    (hj : fs[j]? = some f) (hno : NoMember ms f.jsonName) (hreq : ¬ f.mayBeAbsent cd)
    (hb : ∀ k g, k < j → fs[k]? = some g → NoMember ms g.jsonName → g.mayBeAbsent cd) :
    RejectsWith (fun n => deserializeJson env fl n (.named i) txt) (.missingKey f.name) :=
  struct_missing hw hp hd hdn hx hr hj hno hreq hb

/-- **C28** for structs: of several members with a field's name the last one is the field's value. -/
theorem C28_json_last_member_wins (hw : ProgWf env) (hp : Productive env) {i : Nat} {fs cd nul}
    (hd : env.defs[i]? = some (.struct fs cd nul)) (hdn : DistinctNames fs) {ms : List (JTree × JTree)} {tr : Bool}
    {txt} (hx : JText fl (.obj ms tr) txt) {v : Val} (h : Decodes (fun n => deserializeJson env fl n (.named i) txt) v)
    {j : Nat} {f : Field} (hj : fs[j]? = some f) (hs : f.skip = false) {J : JTree} (hl : LastMember ms f.jsonName J) :
    ∃ vs w, v = .struct vs ∧ vs[j]? = some w ∧ FieldReads env fl f J w := by
  obtain ⟨hr, vs, e, h1, h2⟩ := (struct_iff hw hp hd hdn hx _).1 h
  have hlt : j < vs.length := by rw [h1]; exact (List.getElem?_eq_some_iff.1 hj).1
  have hv := h2 j f _ hj (List.getElem?_eq_getElem hlt)
  refine ⟨vs, vs[j], e, List.getElem?_eq_getElem hlt, ?_⟩
  unfold FieldValue at hv
  rw [if_neg (by simp [hs])] at hv
  obtain ⟨a, b, e, hb⟩ := hl
  rcases hv with ⟨J', ⟨a', b', e', hb'⟩, hf⟩ | ⟨hno, _⟩
  · have : J' = J := by
      rw [e] at e'
      rcases List.append_eq_append_iff.1 e' with ⟨c, rfl, h3⟩ | ⟨c, rfl, h3⟩
      · cases c with
        | nil => simp at h3; exact h3.1.symm
        | cons x c => simp at h3; exact absurd rfl (hb (.str f.jsonName, J') (by rw [h3.2]; simp))
      · cases c with
        | nil => simp at h3; exact h3.1
        | cons x c => simp at h3; exact absurd rfl (hb' (.str f.jsonName, J) (by rw [h3.2]; simp))
    exact this ▸ hf
  · exact absurd rfl (hno (.str f.jsonName, J) (by rw [e]; simp))

theorem EntriesRead.all {k t ms es} (h : EntriesRead env fl k t ms es) : AllEntries es := by
  induction h with
  | nil => intro e he; cases he
  | @cons m ms a b es _ _ _ ih =>
    intro e he
    rcases List.mem_cons.1 he with rfl | he
    · exact ⟨a, b, rfl⟩
    · exact ih e he

/-- **C28** for `HashMap`: the object is accepted exactly if all keys and values are readable, and the
map then has exactly the keys that occur, each with the value of its last occurrence. -/
theorem C28_json_hashmap_last_wins (hkeys : LawfulKeys env) (hw : ProgWf env) (hp : Productive env) {k t : Ty}
    (hk : TyWf env k) (ht : TyWf env t) {ms : List (JTree × JTree)} {tr : Bool} {txt}
    (hx : JText fl (.obj ms tr) txt) {es : List Val} (h : EntriesRead env fl k t ms es) :
    ∃ m, Decodes (fun n => deserializeJson env fl n (.hmap k t) txt) (.seq m) ∧ AllEntries m ∧
      m.Pairwise (fun a b => a.key ≠ b.key) ∧ ∀ q, mapGet q m = lastVal q es := by
  have hE := h.all
  have hp' := hmap_fold_pairwise hkeys es [] hE (fun _ h => by simp at h) List.Pairwise.nil
  refine ⟨_, (map_iff hw hp hk ht .hmap (.hmap k t) ⟨hk, ht⟩ (fun n o => by simp only [decode]) hx _).2 ⟨es, h, rfl⟩,
    hp'.1, hp'.2, fun q => ?_⟩
  rw [hmap_fold_get hkeys es [] q hE (fun _ h => by simp at h)]
  cases lastVal q es <;> simp [mapGet]

/-- **C28** for `BTreeMap`. -/
theorem C28_json_btreemap_last_wins (hkeys : LawfulKeys env) (hw : ProgWf env) (hp : Productive env) {k t : Ty}
    (hk : TyWf env k) (ht : TyWf env t) {ms : List (JTree × JTree)} {tr : Bool} {txt}
    (hx : JText fl (.obj ms tr) txt) {es : List Val} (h : EntriesRead env fl k t ms es) :
    ∃ m, Decodes (fun n => deserializeJson env fl n (.bmap k t) txt) (.seq m) ∧ AllEntries m ∧
      m.Pairwise (fun a b => env.cmp a.key b.key = .lt) ∧ ∀ q, mapGet q m = lastVal q es := by
  have hE := h.all
  have hp' := bmap_fold_pairwise hkeys es [] hE (fun _ h => by simp at h) List.Pairwise.nil
  refine ⟨_, (map_iff hw hp hk ht .bmap (.bmap k t) ⟨hk, ht⟩ (fun n o => by simp only [decode]) hx _).2 ⟨es, h, rfl⟩,
    hp'.1, hp'.2, fun q => ?_⟩
  rw [bmap_fold_get hkeys es [] q hE (fun _ h => by simp at h)]
  cases lastVal q es <;> simp [mapGet]

/-- **C28** for maps, conversely: an accepted object has only readable keys and values. -/
theorem C28_json_map_accepts_only {c : Bool} (hw : ProgWf env) (hp : Productive env) {k t : Ty}
    (hk : TyWf env k) (ht : TyWf env t) {ms : List (JTree × JTree)} {tr : Bool} {txt}
    (hx : JText fl (.obj ms tr) txt) {v : Val}
    (h : Decodes (fun n => deserializeJson env fl n (if c then .hmap k t else .bmap k t) txt) v) :
    ∃ es, EntriesRead env fl k t ms es := by
  cases c with
  | true =>
    obtain ⟨es, h, _⟩ := (map_iff hw hp hk ht .hmap (.hmap k t) ⟨hk, ht⟩ (fun n o => by simp only [decode]) hx _).1 h
    exact ⟨es, h⟩
  | false =>
    obtain ⟨es, h, _⟩ := (map_iff hw hp hk ht .bmap (.bmap k t) ⟨hk, ht⟩ (fun n o => by simp only [decode]) hx _).1 h
    exact ⟨es, h⟩

/-! ## Examples: `Conf` from objects with repeated, unknown, missing and reordered members -/

/-- `{ "n": "x", "zzz": [null], "ratio": 2, "n": "y" }` without `retries` and `level`. -/
def exMs : List (JTree × JTree) :=
  [(.str (chars "n"), .str (chars "x")), (.str (chars "zzz"), .arr [.null] false), (.str (chars "ratio"), .num (.nat 2)),
   (.str (chars "n"), .str (chars "y"))]
/-- Its text. -/
def exMsText : List Char := chars " { \"n\" : \"x\" , \"zzz\" : [ null ] , \"ratio\" : 2 , \"n\" : \"y\" }"

theorem exMs_text : JText fl (.obj exMs false) exMsText := by
  refine jtext_spaced [.punct .curlyOpen, .str (chars "n"), .punct .colon, .str (chars "x"), .punct .comma, .str (chars "zzz"),
    .punct .colon, .punct .blockOpen, .word (chars "null"), .punct .blockClose, .punct .comma, .str (chars "ratio"), .punct .colon,
    .num (.nat 2), .punct .comma, .str (chars "n"), .punct .colon, .str (chars "y"), .punct .curlyClose] ?_ (by decide)
  simp [JTree.lexemes, commaLexemes, exMs, chars]

theorem exConf_at : exJEnv.defs[3]? = some exConf := rfl

theorem exConf_distinct : DistinctNames [
    { name := chars "name", ty := .str, rename := some (chars "n"), tyDefault := .str [] },
    { name := chars "retries", ty := .int .u8, dfltAttr := some (.int 3), tyDefault := .int 0 },
    { name := chars "level", ty := .option (.named 2), optSyn := true, tyDefault := .none },
    { name := chars "cache", ty := .int .u64, skip := true, tyDefault := .int 0 },
    { name := chars "ratio", ty := .f64, tyDefault := .f64 0 } ] := by
  simp [DistinctNames, Field.jsonName, chars]

theorem exMs_reads : Decodes (fun n => deserializeJson exJEnv toyFloat n (.named 3) exMsText)
    (.struct [.str (chars "y"), .int 3, .none, .int 0, .f64 2]) := json_ok 30 _ (by decide +kernel)

/-- C28: the second `"n"` counts. -/
example : ∃ vs w, Val.struct [.str (chars "y"), .int 3, .none, .int 0, .f64 2] = .struct vs ∧ vs[0]? = some w ∧
    FieldReads exJEnv toyFloat { name := chars "name", ty := .str, rename := some (chars "n"), tyDefault := .str [] }
      (.str (chars "y")) w :=
  C28_json_last_member_wins exJEnv_wf exJEnv_productive exConf_at exConf_distinct exMs_text exMs_reads (j := 0) rfl rfl
    ⟨exMs.take 3, [], rfl, by simp⟩

/-- C27: `level` is absent. -/
example : ([.str (chars "y"), .int 3, .none, .int 0, .f64 2] : List Val)[2]? = some .none :=
  C27_json_absent_option exJEnv_wf exJEnv_productive exConf_at exConf_distinct exMs_text exMs_reads (j := 2) rfl
    (by intro m hm; simp [exMs] at hm; rcases hm with rfl | rfl | rfl | rfl <;> simp [Field.jsonName, chars]) rfl rfl

/-- C25, C26: an order and an unknown member that do not matter. -/
example (v : Val) : Decodes (fun n => deserializeJson exJEnv toyFloat n (.named 3) exMsText) v ↔
    Decodes (fun n => deserializeJson exJEnv toyFloat n (.named 3)
      (chars " { \"n\" : \"x\" , \"ratio\" : 2 , \"n\" : \"y\" }")) v :=
  (C26_json_unknown_ignored exJEnv_wf exJEnv_productive exConf_at (by simp) (key := chars "zzz")
    (by simp [Field.jsonName, chars]) (a := exMs.take 1) (b := exMs.drop 2) (tr := false) (tr' := false) exMs_text (by
      refine jtext_spaced [.punct .curlyOpen, .str (chars "n"), .punct .colon, .str (chars "x"), .punct .comma, .str (chars "ratio"),
        .punct .colon, .num (.nat 2), .punct .comma, .str (chars "n"), .punct .colon, .str (chars "y"), .punct .curlyClose] ?_
        (by decide)
      simp [JTree.lexemes, commaLexemes, exMs, chars])).1 v

example (v : Val) : Decodes (fun n => deserializeJson exJEnv toyFloat n (.named 3)
      (chars " { \"n\" : \"x\" , \"ratio\" : 2 }")) v ↔
    Decodes (fun n => deserializeJson exJEnv toyFloat n (.named 3) (chars " { \"ratio\" : 2 , \"n\" : \"x\" , }")) v :=
  C25_json_member_order exJEnv_wf exJEnv_productive exConf_at exConf_distinct
    (ms := [(.str (chars "n"), .str (chars "x")), (.str (chars "ratio"), .num (.nat 2))])
    (ms' := [(.str (chars "ratio"), .num (.nat 2)), (.str (chars "n"), .str (chars "x"))])
    (by simp [chars]) (List.Perm.swap ..) (tr := false) (tr' := true)
    (by
      refine jtext_spaced [.punct .curlyOpen, .str (chars "n"), .punct .colon, .str (chars "x"), .punct .comma, .str (chars "ratio"),
        .punct .colon, .num (.nat 2), .punct .curlyClose] ?_ (by decide)
      simp [JTree.lexemes, commaLexemes])
    (by
      refine jtext_spaced [.punct .curlyOpen, .str (chars "ratio"), .punct .colon, .num (.nat 2), .punct .comma, .str (chars "n"),
        .punct .colon, .str (chars "x"), .punct .comma, .punct .curlyClose] ?_ (by decide)
      simp [JTree.lexemes, commaLexemes]) v

/-- C27: `{ "n": "x" }` lacks `ratio`. -/
theorem exMissing : RejectsWith (fun n => deserializeJson exJEnv toyFloat n (.named 3) (chars " { \"n\" : \"x\" }"))
    (.missingKey (chars "ratio")) := by
  have hx : JText toyFloat (.obj [(.str (chars "n"), .str (chars "x"))] false) (chars " { \"n\" : \"x\" }") := by
    refine jtext_spaced [.punct .curlyOpen, .str (chars "n"), .punct .colon, .str (chars "x"), .punct .curlyClose] ?_ (by decide)
    simp [JTree.lexemes, commaLexemes]
  refine C27_json_missing_key exJEnv_wf exJEnv_productive exConf_at exConf_distinct hx ?_ (j := 4)
    (f := { name := chars "ratio", ty := .f64, tyDefault := .f64 0 }) rfl ?_ ?_ ?_
  · refine ⟨by simp, by simp, ?_⟩
    intro f hf hs J hJ
    simp at hf
    rcases hf with rfl | rfl | rfl | rfl | rfl <;> simp [Field.jsonName, chars] at hJ
    subst hJ
    refine ⟨.str (chars "x"), chars " \"x\"", jtext_spaced [.str (chars "x")] (by simp [JTree.lexemes, chars]) (by decide), ?_⟩
    exact json_ok 5 _ (by decide +kernel)
  · intro m hm; simp at hm; subst hm; simp [Field.jsonName, chars]
  · simp [Field.mayBeAbsent]
  · intro k g hk hg hno
    match k with
    | 0 => simp at hg; subst hg; exact absurd rfl (hno _ (List.mem_cons_self ..))
    | 1 => simp at hg; subst hg; simp [Field.mayBeAbsent]
    | 2 => simp at hg; subst hg; simp [Field.mayBeAbsent]
    | 3 => simp at hg; subst hg; simp [Field.mayBeAbsent]
    | n + 4 => omega

/-- C28 for a map: `{ "a": 1, "b": 2, "a": 3 }`. -/
example : ∃ es, EntriesRead exJEnv toyFloat .str (.int .u8)
    [(.str ['a'], .num (.nat 1)), (.str ['b'], .num (.nat 2)), (.str ['a'], .num (.nat 3))] es ∧
    lastVal (.str ['a']) es = some (.int 3) := by
  have hs : ∀ c, c ∈ ['a', 'b'] → ReadsAs exJEnv toyFloat .str (.str [c]) (.str [c]) := by
    intro c hc
    simp at hc
    rcases hc with rfl | rfl
    · exact ⟨chars " \"a\"", jtext_spaced [.str ['a']] (by simp [JTree.lexemes]) (by decide), json_ok 5 _ (by decide +kernel)⟩
    · exact ⟨chars " \"b\"", jtext_spaced [.str ['b']] (by simp [JTree.lexemes]) (by decide), json_ok 5 _ (by decide +kernel)⟩
  have hn : ∀ n : Nat, n ∈ [1, 2, 3] → ReadsAs exJEnv toyFloat (.int .u8) (.num (.nat n)) (.int n) := by
    intro n hn
    simp at hn
    rcases hn with rfl | rfl | rfl
    · exact ⟨chars " 1", jtext_spaced [.num (.nat 1)] (by simp [JTree.lexemes]) (by decide), json_ok 5 _ (by decide +kernel)⟩
    · exact ⟨chars " 2", jtext_spaced [.num (.nat 2)] (by simp [JTree.lexemes]) (by decide), json_ok 5 _ (by decide +kernel)⟩
    · exact ⟨chars " 3", jtext_spaced [.num (.nat 3)] (by simp [JTree.lexemes]) (by decide), json_ok 5 _ (by decide +kernel)⟩
  exact ⟨_, .cons (hs _ (by simp)) (hn 1 (by simp)) (.cons (hs _ (by simp)) (hn 2 (by simp))
    (.cons (hs _ (by simp)) (hn 3 (by simp)) .nil)), by simp [lastVal]⟩

end NS
