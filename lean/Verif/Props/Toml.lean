import Verif.Lemmas.TomlErr
import Verif.Lemmas.TomlExact
import Verif.Props.TomlExamples
import Verif.Props.RonHalts
/-! # Properties C48–C55: `TomlParser::parse` -/
namespace NS
variable {o : TomlOps}

/-! ## Outcomes -/

theorem toml_ok {n : Nat} {txt : List Char} {m : TMap} {s : Cur} (h : parseToml o n txt = .ok m s) :
    TomlOk (fun n => parseToml o n txt) m :=
  ⟨n, fun k hk => ⟨s, by simp only; rw [parseToml_mono hk (by rw [h]; simp), h]⟩⟩

theorem toml_err {n : Nat} {txt : List Char} {e : TErr} {s : Cur} (h : parseToml o n txt = .err e s) :
    TomlFails (fun n => parseToml o n txt) e.msg e.line e.col :=
  ⟨n, fun k hk => ⟨s, by simp only; rw [parseToml_mono hk (by rw [h]; simp), h]⟩⟩

theorem toml_panic {n : Nat} {txt : List Char} (h : parseToml o n txt = .panic) :
    TomlPanics (fun n => parseToml o n txt) :=
  ⟨n, fun k hk => by simp only; rw [parseToml_mono hk (by rw [h]; simp), h]⟩

/-- The parser has one outcome. -/
theorem toml_unique {txt : List Char} {m m' : TMap} (h : TomlOk (fun n => parseToml o n txt) m)
    (h' : TomlOk (fun n => parseToml o n txt) m') : m' = m := by
  obtain ⟨n, hn⟩ := h
  obtain ⟨n', hn'⟩ := h'
  obtain ⟨s, e⟩ := hn (n + n') (by omega)
  obtain ⟨s', e'⟩ := hn' (n + n') (by omega)
  simp only at e e'
  rw [e] at e'
  injection e' with e'
  exact e'.symm

theorem toml_ok_not_panic {txt : List Char} {m : TMap} (h : TomlOk (fun n => parseToml o n txt) m) :
    ¬ TomlPanics (fun n => parseToml o n txt) := by
  rintro ⟨n', hn'⟩
  obtain ⟨n, hn⟩ := h
  obtain ⟨s, e⟩ := hn (n + n') (by omega)
  have := hn' (n + n') (by omega)
  simp only at e this
  rw [e] at this
  cases this

/-! ## C48 -/

/-- **C48**: on every text the parser stops: it returns a map or an error, or it panics. -/
theorem C48_toml_stops (txt : List Char) :
    (∃ m, TomlOk (fun n => parseToml o n txt) m) ∨
    (∃ why line col, TomlFails (fun n => parseToml o n txt) why line col) ∨
    TomlPanics (fun n => parseToml o n txt) := by
  have h := parseToml_stops (o := o) txt (Nat.le_refl _)
  cases hx : parseToml o (2 * txt.length + 1) txt with
  | ok m s => exact .inl ⟨m, toml_ok hx⟩
  | err e s => exact .inr (.inl ⟨_, _, _, toml_err hx⟩)
  | panic => exact .inr (.inr (toml_panic hx))
  | oof => exact absurd hx h

/-- **C48**: the parser panics on no text but those of the following kind: the text begins with a part
`p` that parses to a map in which `name` is bound to something other than an array of tables,
and right after it a `[[name]]` header `h`. -/
theorem C48_toml_panics_only {txt : List Char} (h : TomlPanics (fun n => parseToml o n txt)) :
    ∃ p hd r name m v, txt = p ++ hd ++ r ∧ TomlOk (fun n => parseToml o n p) m ∧
      TomlOk (fun n => parseToml o n hd) [(name, .array [[]])] ∧ (name, v) ∈ m ∧ ∀ ts, v ≠ .array ts := by
  obtain ⟨n, hn⟩ := h
  have hn := hn n (Nat.le_refl _)
  obtain ⟨a, hd, r, u1, name, h1, h2, h3, h4⟩ := tLoop_panic (u := ⟨[], none, []⟩) (by intro t n e; cases e) hn
  obtain ⟨v, h5, h6⟩ := TOut.startArray_none h4
  obtain ⟨s, h2⟩ := h2 (tInit a) (tInit_txt a)
  obtain ⟨s', h3⟩ := h3 (tInit hd) (tInit_txt hd)
  have h1 : txt = a ++ (hd ++ r) := by rw [← h1]; exact (tInit_txt txt).symm
  have mem : ∀ m : TMap, tGet name m = some v → (name, v) ∈ m := by
    intro m
    induction m with
    | nil => intro h; cases h
    | cons e m ih =>
      intro h
      simp only [tGet] at h
      split at h
      · rename_i he
        cases h
        rw [← he]
        exact List.mem_cons_self
      · exact List.mem_cons_of_mem _ (ih h)
  exact ⟨a, hd, r, name, u1.out, v, by rw [h1]; simp, toml_ok h2, toml_ok h3, mem _ h5, h6⟩

/-- **C48**: on the documents of the grammar (`TText`): it panics exactly if some `[[name]]` header names a
key assigned before the first such header, and otherwise returns `Ok`. -/
theorem C48_toml_documents {doc : List Stmt} {txt : List Char} (h : TText o doc txt) :
    (TomlPanics (fun n => parseToml o n txt) ↔ Clashes doc) ∧
    ((∃ m, TomlOk (fun n => parseToml o n txt) m) ↔ ¬ Clashes doc) := by
  have hp := parse_doc h
  have np : ¬ Clashes doc → ∃ m, TomlOk (fun n => parseToml o n txt) m := fun hc => by
    obtain ⟨m, hm, _⟩ := hp.2 hc
    exact ⟨m, hm⟩
  refine ⟨⟨fun h => ?_, hp.1⟩, ⟨fun ⟨m, hm⟩ hc => toml_ok_not_panic hm (hp.1 hc), np⟩⟩
  rcases Classical.em (Clashes doc) with hc | hc
  · exact hc
  · obtain ⟨m, hm⟩ := np hc
    exact absurd h (toml_ok_not_panic hm)

/-- C48 as first stated (`Ok` or `Err` on every input) is false: `a=1⏎[[a]]` panics. -/
theorem C48_toml_panics : TomlPanics (fun n => parseToml toyToml n (chars "a=1\n[[a]]")) :=
  (C48_toml_documents exClash_text).1.2 ⟨chars "a", [], by simp [tables, assigns], .num (toyToml.ofU64 1), by
    simp [assigns, qualified]⟩

/-- C48: the example document is parsed. -/
example : ∃ m, TomlOk (fun n => parseToml toyToml n exToml) m :=
  (C48_toml_documents exToml_text).2.2 (by
    rintro ⟨n, as, h1, v, h2⟩
    simp only [exTomlDoc, tables, assigns, List.mem_cons, List.not_mem_nil, or_false, Prod.mk.injEq] at h1 h2
    rcases h1 with ⟨rfl, _⟩ | ⟨rfl, _⟩ <;> rcases h2 with ⟨h2, _⟩ | ⟨h2, _⟩ <;> revert h2 <;> decide)

/-! ## C49 -/

/-- **C49**: a document of `[section]` headers and `key = value` lines yields the map that binds exactly
`section.key` (or `key`) to the value last assigned to it, in key order. -/
theorem C49_toml_document {doc : List Stmt} {txt : List Char} (h : TText o doc txt) (hd : ∀ n, Stmt.table n ∉ doc) :
    ∃ m, TomlOk (fun n => parseToml o n txt) m ∧ m.Pairwise (fun a b => a.1 < b.1) ∧
      ∀ k v, (k, v) ∈ m ↔ lastAssigned k (assigns [] doc) = some v := by
  have ht : tables doc = [] := by
    clear h
    induction doc with
    | nil => rfl
    | cons x doc ih =>
      have ih := ih fun n hn => hd n (List.mem_cons_of_mem _ hn)
      cases x with
      | table n => exact absurd List.mem_cons_self (hd n)
      | sect s => simpa [tables] using ih
      | assign k v => simpa [tables] using ih
  obtain ⟨m, h1, h2, h3⟩ := (parse_doc h).2 (by rintro ⟨n, as, h, _⟩; rw [ht] at h; cases h)
  exact ⟨m, h1, h2, fun k v => (h3 k).1 (by simp [ht]) v⟩

/-- Example for C49: `[s]⏎k = 1 # one⏎k=[2]` -/
theorem ex49 : TText toyToml [.sect (chars "s"), .assign (chars "k") (.num (toyToml.ofU64 1)),
    .assign (chars "k") (.simpleArray [.num (toyToml.ofU64 2)])] (chars "[s]\nk = 1 # one\nk=[2]") := by
  refine ⟨[.blockOpen, .ident (chars "s"), .blockClose, .ident (chars "k"), .equals, .u64 1,
    .ident (chars "k"), .equals, .blockOpen, .u64 2, .blockClose], ?_, [], .inl .nil, ?_⟩
  · exact .cons (ts := [_, _, _]) .sect (.cons (ts := [_, _, _]) (.assign .ident .nat) (.cons (ts := [_, _, _, _, _])
      (.assign .ident (.array (ts := [_]) (.elem (ts := [_]) .nat .nil))) .nil))
  · refine .at [] (chars "[") (chars "s]\nk = 1 # one\nk=[2]") (by decide) .nil .blockOpen ?_
    refine .at [] (chars "s") (chars "]\nk = 1 # one\nk=[2]") (by decide) .nil (ident1 (by decide) (by decide) (by decide) (by decide)) ?_
    refine .at [] (chars "]") (chars "\nk = 1 # one\nk=[2]") (by decide) .nil .blockClose ?_
    refine .at (chars "\n") (chars "k") (chars " = 1 # one\nk=[2]") (by decide) (lay1 (by decide)) (ident1 (by decide) (by decide) (by decide) (by decide)) ?_
    refine .at (chars " ") (chars "=") (chars " 1 # one\nk=[2]") (by decide) (lay1 (by decide)) .equals ?_
    refine .at (chars " ") (chars "1") (chars " # one\nk=[2]") (by decide) (lay1 (by decide)) (digit1 (c := '1') (by decide) (by decide)) ?_
    refine .at (chars " # one\n") (chars "k") (chars "=[2]") (by decide)
      (.space (by decide) (.comment (b := chars " one") (w := []) (by decide) (by decide) .nil)) (ident1 (by decide) (by decide) (by decide) (by decide)) ?_
    refine .at [] (chars "=") (chars "[2]") (by decide) .nil .equals ?_
    refine .at [] (chars "[") (chars "2]") (by decide) .nil .blockOpen ?_
    refine .at [] (chars "2") (chars "]") (by decide) .nil (digit1 (c := '2') (by decide) (by decide)) ?_
    exact .at [] (chars "]") [] (by decide) .nil .blockClose .nil

example : ∃ m, TomlOk (fun n => parseToml toyToml n (chars "[s]\nk = 1 # one\nk=[2]")) m ∧
    (chars "s.k", .simpleArray [.num (toyToml.ofU64 2)]) ∈ m := by
  obtain ⟨m, h1, _, h3⟩ := C49_toml_document ex49 (by simp)
  exact ⟨m, h1, (h3 _ _).2 (by simp [lastAssigned, assigns, qualified, chars])⟩

/-! ## C50 -/

/-- **C50**: in a document in which no `[[name]]` header names a key assigned before, the map binds each
such name to the array with one table per header of that name, in order, each holding exactly what
was assigned between its header and the next (under `[section]` headers with the section's
prefix); all other keys have the value assigned before the first such header. -/
theorem C50_toml_tables {doc : List Stmt} {txt : List Char} (h : TText o doc txt) (hc : ¬ Clashes doc) :
    ∃ m, TomlOk (fun n => parseToml o n txt) m ∧ m.Pairwise (fun a b => a.1 < b.1) ∧ ∀ k,
      (k ∉ (tables doc).map Prod.fst → ∀ v, (k, v) ∈ m ↔ lastAssigned k (assigns [] doc) = some v) ∧
      (k ∈ (tables doc).map Prod.fst → ∃ ts, (∀ v, (k, v) ∈ m ↔ v = .array ts) ∧
        Matching Holding ts (((tables doc).filter (fun t => t.1 == k)).map Prod.snd)) := by
  obtain ⟨m, h1, h2, h3⟩ := (parse_doc h).2 hc
  exact ⟨m, h1, h2, h3⟩

theorem Holding.unique {m m' : TMap} {as : List (List Char × Toml)} (h : Holding m as) (h' : Holding m' as) : m' = m := by
  have ks : ∀ {m : TMap}, m.Pairwise (fun a b => a.1 < b.1) → KSorted m := fun h =>
    List.Pairwise.imp (fun h => (strLt_iff _ _).2 h) h
  refine tSorted_ext (ks h'.1) (ks h.1) fun k => ?_
  cases hx : tGet k m with
  | none =>
    cases hy : tGet k m' with
    | none => rfl
    | some v =>
      have := (h.2 k v).2 ((h'.2 k v).1 ((tGet_mem (ks h'.1) k v).1 hy))
      rw [(tGet_mem (ks h.1) k v).2 this] at hx
      cases hx
  | some v =>
    have := (h'.2 k v).2 ((h.2 k v).1 ((tGet_mem (ks h.1) k v).1 hx))
    exact (tGet_mem (ks h'.1) k v).2 this

theorem holding_single (k : List Char) (v : Toml) : Holding [(k, v)] [(k, v)] := by
  refine ⟨by simp, fun k' v' => ?_⟩
  simp only [lastAssigned, List.reverse_cons, List.reverse_nil, List.nil_append, List.find?_cons, List.find?_nil,
    List.mem_cons, List.not_mem_nil, or_false, Prod.mk.injEq]
  by_cases hk : k = k'
  · subst hk; simp [eq_comm]
  · have : (k == k') = false := by simpa using hk
    simp only [this, Option.map_none, reduceCtorEq, iff_false]
    exact fun h => hk h.1.symm

theorem Matching.prefix {as bs : List TMap} {cs ds : List (List (List Char × Toml))} (h : Matching Holding as cs)
    (h' : Matching Holding bs (cs ++ ds)) : ∃ es, bs = as ++ es ∧ Matching Holding es ds := by
  induction h generalizing bs with
  | nil => exact ⟨bs, rfl, h'⟩
  | cons h1 _ ih =>
    cases h' with
    | cons g1 g2 =>
      obtain ⟨es, rfl, he⟩ := ih g2
      exact ⟨es, by rw [h1.unique g1]; rfl, he⟩

theorem tables_append (doc more : List Stmt) (n : List Char) :
    tables (doc ++ .table n :: more) = tables doc ++ tables (.table n :: more) ∧
    ∀ s, assigns s (doc ++ .table n :: more) = assigns s doc := by
  induction doc with
  | nil => exact ⟨rfl, fun s => rfl⟩
  | cons x doc ih =>
    cases x with
    | table m => exact ⟨by simp [tables, ih.1, ih.2], fun s => rfl⟩
    | sect s => exact ⟨by simpa [tables] using ih.1, fun s' => by simpa [assigns] using ih.2 s⟩
    | assign k v => exact ⟨by simpa [tables] using ih.1, fun s' => by simp [assigns, ih.2]⟩

/-- **C50**: text that begins with a `[[n]]` header, added to a document, leaves all tables there are as
they are: it only adds tables at the end of arrays, the first one to the array under `n`. -/
theorem C50_toml_tables_kept {doc more : List Stmt} {n : List Char} {txt txt' : List Char} {m m' : TMap}
    (h : TText o doc txt) (h' : TText o (doc ++ .table n :: more) txt')
    (hm : TomlOk (fun n => parseToml o n txt) m) (hm' : TomlOk (fun n => parseToml o n txt') m') :
    (∀ k ts, (k, .array ts) ∈ m → ∃ ts', (k, .array (ts ++ ts')) ∈ m') ∧
    ∃ ts t ts', (n, .array (ts ++ t :: ts')) ∈ m' ∧ Holding t (assigns [] more) ∧
      ((n, .array ts) ∈ m ∨ ts = [] ∧ ∀ v, (n, v) ∉ m) := by
  obtain ⟨e1, e2⟩ := tables_append doc more n
  have c1 : ¬ Clashes doc := fun hc => toml_ok_not_panic hm ((parse_doc h).1 hc)
  have c2 : ¬ Clashes (doc ++ .table n :: more) := fun hc => toml_ok_not_panic hm' ((parse_doc h').1 hc)
  obtain ⟨m1, g1, g2, g3⟩ := (parse_doc h).2 c1
  obtain ⟨m2, g1', g2', g3'⟩ := (parse_doc h').2 c2
  cases toml_unique hm g1
  cases toml_unique hm' g1'
  have plain : ∀ k v, (k, v) ∈ assigns [] doc → ∀ ts, v ≠ .array ts := by
    obtain ⟨ts, hs, _⟩ := h
    have hp := hs.plain
    intro k v hk us e
    subst e
    have : ∀ (doc : List Stmt) (s : List Char), (k, Toml.array us) ∈ assigns s doc → ∃ q, Stmt.assign q (.array us) ∈ doc := by
      intro doc
      induction doc with
      | nil => intro s h; cases h
      | cons x doc ih =>
        intro s h
        cases x with
        | table m => cases h
        | sect s' => obtain ⟨q, hq⟩ := ih _ h; exact ⟨q, List.mem_cons_of_mem _ hq⟩
        | assign q v =>
          rcases List.mem_cons.1 h with h | h
          · injection h with _ h; subst h; exact ⟨q, List.mem_cons_self⟩
          · obtain ⟨q, hq⟩ := ih _ h; exact ⟨q, List.mem_cons_of_mem _ hq⟩
    obtain ⟨q, hq⟩ := this doc [] hk
    have := hp q _ hq
    cases this
  -- arrays come from headers
  have arr : ∀ k ts, (k, .array ts) ∈ m → k ∈ (tables doc).map Prod.fst := by
    intro k ts hk
    rcases Classical.em (k ∈ (tables doc).map Prod.fst) with hk' | hk'
    · exact hk'
    · have := ((g3 k).1 hk' _).1 hk
      exact absurd rfl (plain _ _ (lastAssigned_mem this) ts)
  have sub : ∀ k, k ∈ (tables doc).map Prod.fst → k ∈ (tables (doc ++ .table n :: more)).map Prod.fst := by
    intro k hk
    rw [e1, List.map_append]
    exact List.mem_append_left _ hk
  have ext : ∀ k ts, (k, .array ts) ∈ m → ∃ ts', (k, .array (ts ++ ts')) ∈ m' ∧
      Matching Holding ts' (((tables (.table n :: more)).filter (fun t => t.1 == k)).map Prod.snd) := by
    intro k ts hk
    obtain ⟨us, h1, h2⟩ := (g3 k).2 (arr k ts hk)
    have := (h1 _).1 hk
    injection this with this
    subst this
    obtain ⟨us', h1', h2'⟩ := (g3' k).2 (sub k (arr k ts hk))
    rw [e1, List.filter_append, List.map_append] at h2'
    obtain ⟨es, rfl, hes⟩ := Matching.prefix h2 h2'
    exact ⟨es, (h1' _).2 rfl, hes⟩
  refine ⟨fun k ts hk => ?_, ?_⟩
  · obtain ⟨ts', h1, _⟩ := ext k ts hk
    exact ⟨ts', h1⟩
  · have hfil : ((tables (.table n :: more)).filter (fun t => t.1 == n)).map Prod.snd =
        assigns [] more :: ((tables more).filter (fun t => t.1 == n)).map Prod.snd := by simp [tables]
    rcases Classical.em (n ∈ (tables doc).map Prod.fst) with hn | hn
    · obtain ⟨us, h1, h2⟩ := (g3 n).2 hn
      have hk := (h1 _).2 rfl
      obtain ⟨ts', h3, h4⟩ := ext n us hk
      rw [hfil] at h4
      cases h4 with
      | cons a b => exact ⟨us, _, _, h3, a, .inl hk⟩
    · obtain ⟨us, h1, h2⟩ := (g3' n).2 (by rw [e1, List.map_append]; exact List.mem_append_right _ (by simp [tables]))
      have hnil : (tables doc).filter (fun t => t.1 == n) = [] := by
        rw [List.filter_eq_nil_iff]
        intro x hx
        have : x.1 ≠ n := fun e => hn (List.mem_map.2 ⟨x, hx, e⟩)
        simpa using this
      rw [e1, List.filter_append, hnil, List.nil_append, hfil] at h2
      cases h2 with
      | cons a b =>
        refine ⟨[], _, _, (h1 _).2 rfl, a, .inr ⟨rfl, fun v hv => ?_⟩⟩
        have := ((g3 n).1 hn v).1 hv
        refine c2 ⟨n, assigns [] more, ?_, v, ?_⟩
        · rw [e1]; exact List.mem_append_right _ (by simp [tables])
        · rw [e2]; exact lastAssigned_mem this

/-- C50: two tables `t`, the first with one entry, and `s.k` as last assigned. -/
example : ∃ m, TomlOk (fun n => parseToml toyToml n exToml) m ∧
    (chars "t", .array [[(chars "a", .num (toyToml.ofI64 (-3)))], []]) ∈ m := by
  obtain ⟨m, h1, _, h3⟩ := C50_toml_tables exToml_text (by
    rintro ⟨n, as, h1, v, h2⟩
    simp only [exTomlDoc, tables, assigns, List.mem_cons, List.not_mem_nil, or_false, Prod.mk.injEq] at h1 h2
    rcases h1 with ⟨rfl, _⟩ | ⟨rfl, _⟩ <;> rcases h2 with ⟨h2, _⟩ | ⟨h2, _⟩ <;> revert h2 <;> decide)
  obtain ⟨ts, h4, h5⟩ := (h3 (chars "t")).2 (by simp [exTomlDoc, tables])
  refine ⟨m, h1, (h4 _).2 ?_⟩
  have hf : ((tables exTomlDoc).filter (fun t => t.1 == chars "t")).map Prod.snd =
      [[(chars "a", .num (toyToml.ofI64 (-3)))], []] := by
    simp [exTomlDoc, tables, assigns, qualified]
  rw [hf] at h5
  cases h5 with
  | cons a b =>
    cases b with
    | cons a' b' =>
      cases b'
      have e1 := holding_single (chars "a") (.num (toyToml.ofI64 (-3)))
      have e2 : Holding [] [] := ⟨by simp, fun k v => by simp [lastAssigned]⟩
      rw [e1.unique a, e2.unique a']

/-! ## C51 -/

/-- Two texts that differ only in the layout between tokens: either both consist of the tokens `ts`
entirely, or they have the tokens `ts` followed by the same (arbitrary) text. -/
def TSameTokens (o : TomlOps) (txt txt' : List Char) : Prop :=
  ∃ ts, (TFull o ts txt ∧ TFull o ts txt') ∨
    ∃ l l' tail, TLayout l ∧ TLayout l' ∧ NotBefore (fun c => Blank c ∨ c = '#') tail ∧
      TDoc o ts txt (l ++ tail) ∧ TDoc o ts txt' (l' ++ tail)

/-- The texts to come have the same tokens or are the same. -/
def layoutSim (o : TomlOps) : TSim o where
  R c c' := TSameTokens o c.txt c'.txt ∨ c'.txt = c.txt
  E e e' := e'.msg = e.msg

theorem txt_to_layout {α : Type} {x y : Out TErr Cur α} (h : (TomlRel.sim txtRel o).Out x y) : (layoutSim o).Out x y := by
  cases x <;> cases y
  all_goals first | trivial | exact h.elim | skip
  · exact ⟨h.1, .inr h.2⟩
  · exact ⟨h.1.1, .inr h.2⟩

theorem layoutSim_good : (layoutSim o).Good where
  err := fun _ _ => rfl
  next := by
    intro c c' h
    rcases h with ⟨ts, h⟩ | h
    · rcases h with ⟨⟨w, hw, h1⟩, w', hw', h2⟩ | ⟨l, l', tail, hl, hl', ht, h1, h2⟩
      · generalize ht : c.txt = t at h1
        generalize ht' : c'.txt = t' at h2
        cases h1 with
        | nil =>
          cases h2
          obtain ⟨d, e, hd⟩ := tNext_end (o := o) hw ht
          obtain ⟨d', e', hd'⟩ := tNext_end (o := o) hw' ht'
          rw [e, e']
          exact ⟨rfl, .inr (by rw [hd, hd'])⟩
        | cons g1 g2 g3 =>
          cases h2 with
          | cons g1' g2' g3' =>
            obtain ⟨d, e, hd⟩ := tNext_spell g1 g2 ht
            obtain ⟨d', e', hd'⟩ := tNext_spell g1' g2' ht'
            rw [e, e']
            subst hd hd'
            exact ⟨rfl, .inl ⟨_, .inl ⟨⟨w, hw, g3⟩, w', hw', g3'⟩⟩⟩
      · generalize hc : c.txt = t at h1
        generalize hc' : c'.txt = t' at h2
        cases h1 with
        | nil =>
          cases h2
          have hst : StopAt (fun x => isWs x || x == '#') tail := by
            intro y q e
            have := ht y (by rw [e]; rfl)
            simp only [not_or] at this
            have hb : isWs y = false := by simpa using fun h => this.1 ((blank_iff y).2 h)
            simp [hb, this.2]
          obtain ⟨d, e, hd⟩ := tSkip_layout hl hst (n := c.txt.length + 1) (c := c) hc
            (by rw [hc]; simp only [List.length_append]; omega)
          obtain ⟨d', e', hd'⟩ := tSkip_layout hl' hst (n := c'.txt.length + 1) (c := c') hc'
            (by rw [hc']; simp only [List.length_append]; omega)
          simp only [tNext, e, e']
          exact txt_to_layout (TomlRel.tok (C := txtRel) (o := o) (by show d'.txt = d.txt; rw [hd, hd']))
        | cons g1 g2 g3 =>
          cases h2 with
          | cons g1' g2' g3' =>
            obtain ⟨d, e, hd⟩ := tNext_spell g1 g2 hc
            obtain ⟨d', e', hd'⟩ := tNext_spell g1' g2' hc'
            rw [e, e']
            subst hd hd'
            exact ⟨rfl, .inl ⟨_, .inr ⟨l, l', tail, hl, hl', ht, g3, g3'⟩⟩⟩
    · exact txt_to_layout (TomlRel.next (C := txtRel) (o := o) h)

theorem TSameTokens.symm {txt txt' : List Char} (h : TSameTokens o txt txt') : TSameTokens o txt' txt := by
  obtain ⟨ts, ⟨h1, h2⟩ | ⟨l, l', tail, hl, hl', ht, h1, h2⟩⟩ := h
  · exact ⟨ts, .inl ⟨h2, h1⟩⟩
  · exact ⟨ts, .inr ⟨l', l, tail, hl', hl, ht, h2, h1⟩⟩

theorem sameTokens_out {txt txt' : List Char} (h : TSameTokens o txt txt') (n : Nat) :
    (layoutSim o).Out (parseToml o n txt) (parseToml o n txt') :=
  layoutSim_good.loop (Nat.le_refl n) _ _ _ (.inl (by
    have h1 := tInit_txt txt
    have h2 := tInit_txt txt'
    rw [tInit] at h1 h2
    rw [h1, h2]; exact h))

/-- **C51**: white space and comments between tokens change neither the map nor whether there is an error
or a panic, nor the message of the error — in every text, well-formed or not. -/
theorem C51_toml_layout {txt txt' : List Char} (h : TSameTokens o txt txt') :
    (∀ m, TomlOk (fun n => parseToml o n txt) m ↔ TomlOk (fun n => parseToml o n txt') m) ∧
    (TomlPanics (fun n => parseToml o n txt) ↔ TomlPanics (fun n => parseToml o n txt')) ∧
    (∀ why, (∃ line col, TomlFails (fun n => parseToml o n txt) why line col) ↔
      ∃ line col, TomlFails (fun n => parseToml o n txt') why line col) := by
  have one : ∀ {txt txt' : List Char}, TSameTokens o txt txt' →
      (∀ m, TomlOk (fun n => parseToml o n txt) m → TomlOk (fun n => parseToml o n txt') m) ∧
      (TomlPanics (fun n => parseToml o n txt) → TomlPanics (fun n => parseToml o n txt')) ∧
      (∀ why, (∃ line col, TomlFails (fun n => parseToml o n txt) why line col) →
        ∃ line col, TomlFails (fun n => parseToml o n txt') why line col) := by
    intro txt txt' h
    refine ⟨fun m ⟨n, hn⟩ => ?_, fun ⟨n, hn⟩ => ?_, fun why ⟨line, col, n, hn⟩ => ?_⟩
    · obtain ⟨s, e⟩ := hn n (Nat.le_refl _)
      have := sameTokens_out h n
      simp only at e
      rw [e] at this
      cases hy : parseToml o n txt' <;> rw [hy] at this
      all_goals first | exact this.elim | skip
      obtain ⟨rfl, _⟩ := this
      exact toml_ok hy
    · have e := hn n (Nat.le_refl _)
      have := sameTokens_out h n
      simp only at e
      rw [e] at this
      cases hy : parseToml o n txt' <;> rw [hy] at this
      all_goals first | exact this.elim | skip
      exact toml_panic hy
    · obtain ⟨s, e⟩ := hn n (Nat.le_refl _)
      have := sameTokens_out h n
      simp only at e
      rw [e] at this
      cases hy : parseToml o n txt' <;> rw [hy] at this
      all_goals first | exact this.elim | skip
      obtain ⟨h1, _⟩ := this
      have h1 : _ = why := h1
      subst h1
      exact ⟨_, _, toml_err hy⟩
  exact ⟨fun m => ⟨(one h).1 m, (one h.symm).1 m⟩, ⟨(one h).2.1, (one h.symm).2.1⟩,
    fun why => ⟨(one h).2.2 why, (one h.symm).2.2 why⟩⟩

/-- C51: `k=1 $` and `k # c⏎ = 1  $` (both fail at the `$`). -/
example : TSameTokens toyToml (chars "k=1 $") (chars "k # c\n = 1  $") := by
  refine ⟨[.ident (chars "k"), .equals, .u64 1], .inr ⟨chars " ", chars "  ", chars "$", lay1 (by decide),
    .space (by decide) (lay1 (by decide)), notBefore_ok (by decide), ?_, ?_⟩⟩
  · refine .at [] (chars "k") (chars "=1 $") (by decide) .nil (ident1 (by decide) (by decide) (by decide) (by decide)) ?_
    refine .at [] (chars "=") (chars "1 $") (by decide) .nil .equals ?_
    exact .at [] (chars "1") (chars " $") (by decide) .nil (digit1 (c := '1') (by decide) (by decide)) .nil
  · refine .at [] (chars "k") (chars " # c\n = 1  $") (by decide) .nil (ident1 (by decide) (by decide) (by decide) (by decide)) ?_
    refine .at (chars " # c\n ") (chars "=") (chars " 1  $") (by decide)
      (.space (by decide) (.comment (b := chars " c") (w := [' ']) (by decide) (by decide) (lay1 (by decide)))) .equals ?_
    exact .at (chars " ") (chars "1") (chars "  $") (by decide) (lay1 (by decide)) (digit1 (c := '1') (by decide) (by decide)) .nil

/-! ## Values -/

/-- A value, written in a document with one assignment. -/
theorem toml_value {k : List Char} {v : Toml} {ts : List TTok} {txt : List Char} (hv : TValue o v ts)
    (h : TFull o (.ident k :: .equals :: ts) txt) : TomlOk (fun n => parseToml o n txt) [(k, v)] := by
  have ht : TText o [.assign k v] txt := ⟨.ident k :: .equals :: ts, by
    have := TStmts.cons (o := o) (TStmt.assign (t := .ident k) (k := k) .ident hv) .nil
    simpa using this, h⟩
  obtain ⟨m, h1, h2, h3⟩ := C49_toml_document ht (by simp)
  have e : m = [(k, v)] := by
    refine (holding_single k v).unique ⟨h2, fun k' v' => ?_⟩
    rw [h3]; simp [assigns, qualified]
  rw [← e]; exact h1

/-! ## C52 -/

/-- **C52**: a string `"b"` that is not empty denotes exactly its characters; a backslash makes the
next character stand for itself (`TBody`).  Shown for a value: `k = "b"` is read as the map from
`k` to that string, for every unquoted key `k`. -/
theorem C52_toml_string {k b s r : List Char} (hk : ∀ r, Terminated r → TSpell o k r (.ident k)) (hb : b ≠ []) (hs : TBody b s)
    (hr : TLayoutEnd r) :
    TomlOk (fun n => parseToml o n (k ++ " = \"".toList ++ b ++ '"' :: r)) [(k, .str s)] := by
  refine toml_value .str ⟨r, hr, ?_⟩
  refine .at [] k (" = \"".toList ++ b ++ '"' :: r) (by simp) .nil (hk _ (terminated_ok (by rfl))) ?_
  refine .at [' '] ['='] (' ' :: '"' :: (b ++ '"' :: r)) (by simp) (lay1 (.inl rfl)) .equals ?_
  exact .at [' '] ('"' :: (b ++ ['"'])) r (by simp) (lay1 (.inl rfl)) (.str hb hs) .nil

/-- Characters other than quotes, backslashes and NUL stand for themselves. -/
theorem TBody.plain_self {s : List Char} (h : ∀ c ∈ s, c ≠ '"' ∧ c ≠ '\\' ∧ c ≠ '\x00') : TBody s s := by
  induction s with
  | nil => exact .nil
  | cons c s ih =>
    obtain ⟨h1, h2, h3⟩ := h c List.mem_cons_self
    exact .plain h1 h2 h3 (ih fun x hx => h x (List.mem_cons_of_mem _ hx))

/-- **C52** in particular: without quotes, backslashes and NUL, exactly the characters written. -/
theorem C52_toml_string_plain {k s r : List Char} (hk : ∀ r, Terminated r → TSpell o k r (.ident k)) (hs : s ≠ [])
    (h : ∀ c ∈ s, c ≠ '"' ∧ c ≠ '\\' ∧ c ≠ '\x00') (hr : TLayoutEnd r) :
    TomlOk (fun n => parseToml o n (k ++ " = \"".toList ++ s ++ '"' :: r)) [(k, .str s)] :=
  C52_toml_string hk hs (.plain_self h) hr

/-- **C52** does not extend to the empty string: where a value is expected, `""` that is not followed by
another quote anywhere is an error. -/
theorem C52_toml_empty_string_misread {doc : List Stmt} {txt w r : List Char} (h : TUpTo o doc txt (w ++ '"' :: '"' :: r))
    (hc : ¬ Clashes doc) (hw : TLayout w) (hr : '"' ∉ r) :
    ∃ line col, TomlFails (fun n => parseToml o n txt) (.parse "string".toList) line col :=
  parse_bad h hc fun _ hc' => tNext_err hw (notBefore_ok (r := '"' :: '"' :: r) rfl) (fun _ h => tTok_empty hr h) hc'

/-- Keys of one letter, for the examples. -/
theorem key1 {c : Char} (h1 : Bare c) (h2 : ¬ Digit c) (h3 : c ≠ '-') : ∀ r, Terminated r → TSpell o [c] r (.ident [c]) :=
  fun _ hr => .ident h1 h2 h3 (by simp) (by simp [tomlWords]) hr

example : TomlOk (fun n => parseToml toyToml n (chars "k = \"a'b#c\" # c")) [(chars "k", .str (chars "a'b#c"))] :=
  C52_toml_string_plain (k := chars "k") (s := chars "a'b#c") (r := chars " # c") (key1 (by decide) (by decide) (by decide)) (by decide) (by decide)
    (.inr ⟨chars " ", chars " c", lay1 (by decide), by decide, by decide, by decide⟩)

/-- `k = ` followed by a bad value. -/
theorem upTo1 {tail : List Char} : TUpTo o [] ('k' :: ' ' :: '=' :: tail) tail := by
  refine ⟨[], .ident ['k'], ['k'], [], .nil, .inl .ident, .nil, ?_⟩
  refine .at [] ['k'] (' ' :: '=' :: tail) (by simp) .nil (key1 (by decide) (by decide) (by decide) _ (terminated_ok rfl)) ?_
  exact .at [' '] ['='] tail (by simp) (lay1 (.inl rfl)) .equals .nil

theorem noClash_nil : ¬ Clashes [] := by rintro ⟨_, _, h, _⟩; cases h

example : ∃ line col, TomlFails (fun n => parseToml toyToml n (chars "k = \"\"\nl = 2")) (.parse "string".toList) line col :=
  C52_toml_empty_string_misread (w := [' ']) (r := chars "\nl = 2") upTo1 noClash_nil (lay1 (.inl rfl)) (by decide)

/-! ## C53 -/

/-- **C53**: an array denotes the list of the values of its elements, whatever they are (arrays among
them), with commas between, before or after them: `TElems` (where a word as element must be
followed by a blank or `]`: `Terminated`). -/
theorem C53_toml_array {k : List Char} {vs : List Toml} {ts : List TTok} {txt : List Char} (hv : TElems o vs ts)
    (h : TFull o (.ident k :: .equals :: .blockOpen :: (ts ++ [.blockClose])) txt) :
    TomlOk (fun n => parseToml o n txt) [(k, .simpleArray vs)] :=
  toml_value (.array hv) h

/-- The tokens of elements separated by commas. -/
theorem TElems.commas {vs : List Toml} {ts : List (List TTok)} (h : Matching (TValue o) vs ts) :
    TElems o vs (ts.flatMap fun t => t ++ [.comma]) ∧ TElems o vs (ts.intersperse [.comma]).flatten := by
  induction h with
  | nil => exact ⟨.nil, .nil⟩
  | @cons v t vs ts h1 h2 ih =>
    refine ⟨?_, ?_⟩
    · rw [List.flatMap_cons, List.append_assoc]
      exact .elem h1 (.comma ih.1)
    · cases h2 with
      | nil => simpa using TElems.elem h1 .nil
      | cons g1 g2 =>
        rw [List.intersperse_cons₂, List.flatten_cons, List.flatten_cons]
        exact .elem h1 (.comma ih.2)

/-- **C53**: elements separated by commas, with or without a comma after the last. -/
theorem C53_toml_array_commas {k : List Char} {vs : List Toml} {ts : List (List TTok)} {txt : List Char}
    (hv : Matching (TValue o) vs ts)
    (h : TFull o (.ident k :: .equals :: .blockOpen :: (ts.flatMap (fun t => t ++ [.comma]) ++ [.blockClose])) txt ∨
      TFull o (.ident k :: .equals :: .blockOpen :: ((ts.intersperse [.comma]).flatten ++ [.blockClose])) txt) :
    TomlOk (fun n => parseToml o n txt) [(k, .simpleArray vs)] := by
  rcases h with h | h
  · exact C53_toml_array (TElems.commas hv).1 h
  · exact C53_toml_array (TElems.commas hv).2 h

/-- **C53** does not extend to words directly before a comma: `true,` (and `false,`, `inf,`, `nan,`) where a
value is expected is an error. -/
theorem C53_toml_word_comma_error {doc : List Stmt} {txt w wd r : List Char} {t : TTok} (hwd : (wd, t) ∈ tomlWords)
    (h : TUpTo o doc txt (w ++ (wd ++ ',' :: r))) (hc : ¬ Clashes doc) (hw : TLayout w) :
    ∃ line col, TomlFails (fun n => parseToml o n txt) (.parse "tokenizer".toList) line col := by
  refine parse_bad h hc fun _ hc' => tNext_err hw ?_ (fun _ h => tTok_word hwd (by decide) ?_ (by decide) h) hc'
  · simp only [tomlWords, List.mem_cons, List.not_mem_nil, or_false, Prod.mk.injEq] at hwd
    rcases hwd with ⟨rfl, _⟩ | ⟨rfl, _⟩ | ⟨rfl, _⟩ | ⟨rfl, _⟩ <;> exact notBefore_ok rfl
  · intro h
    have := h ',' rfl
    revert this; decide

/-- C53: `k=[1,[2,],]`. -/
example : TomlOk (fun n => parseToml toyToml n (chars "k=[1,[2,],]"))
    [(chars "k", .simpleArray [.num (toyToml.ofU64 1), .simpleArray [.num (toyToml.ofU64 2)]])] := by
  refine C53_toml_array (ts := [.u64 1, .comma, .blockOpen, .u64 2, .comma, .blockClose, .comma])
    (.elem (ts := [_]) .nat (.comma (.elem (ts := [_, _, _, _]) (.array (ts := [_, _]) (.elem (ts := [_]) .nat (.comma .nil))) (.comma .nil))))
    ⟨[], .inl .nil, ?_⟩
  refine .at [] (chars "k") (chars "=[1,[2,],]") (by decide) .nil (ident1 (by decide) (by decide) (by decide) (by decide)) ?_
  refine .at [] (chars "=") (chars "[1,[2,],]") (by decide) .nil .equals ?_
  refine .at [] (chars "[") (chars "1,[2,],]") (by decide) .nil .blockOpen ?_
  refine .at [] (chars "1") (chars ",[2,],]") (by decide) .nil (digit1 (c := '1') (by decide) (by decide)) ?_
  refine .at [] (chars ",") (chars "[2,],]") (by decide) .nil .comma ?_
  refine .at [] (chars "[") (chars "2,],]") (by decide) .nil .blockOpen ?_
  refine .at [] (chars "2") (chars ",],]") (by decide) .nil (digit1 (c := '2') (by decide) (by decide)) ?_
  refine .at [] (chars ",") (chars "],]") (by decide) .nil .comma ?_
  refine .at [] (chars "]") (chars ",]") (by decide) .nil .blockClose ?_
  refine .at [] (chars ",") (chars "]") (by decide) .nil .comma ?_
  exact .at [] (chars "]") [] (by decide) .nil .blockClose .nil

/-- C53: `k =[true,false]` is rejected. -/
example : ∃ line col, TomlFails (fun n => parseToml toyToml n (chars "k =[true,false]")) (.parse "tokenizer".toList) line col := by
  refine C53_toml_word_comma_error (doc := []) (w := []) (wd := chars "true") (r := chars "false]") (t := .bool true) (by simp [tomlWords, chars]) ?_
    noClash_nil .nil
  refine ⟨[], .ident ['k'], ['k'], [.blockOpen], .nil, .inl .ident, .open (ts := []) .nil .nil, ?_⟩
  refine .at [] ['k'] (chars " =[true,false]") (by decide) .nil (key1 (by decide) (by decide) (by decide) _ (terminated_ok (by decide))) ?_
  refine .at [' '] ['='] (chars "[true,false]") (by decide) (lay1 (.inl rfl)) .equals ?_
  exact .at [] ['['] (chars "true,false]") (by decide) .nil .blockOpen .nil

/-! ## C54 -/

/-- **C54**: an integer literal — digits, possibly grouped with underscores, possibly signed — within the range of
`i64` denotes the float nearest to its value (`as f64`; `+` and unsigned ones through `u64`). -/
theorem C54_toml_integer {k s ds r : List Char} (hk : ∀ r, Terminated r → TSpell o k r (.ident k)) (hs : Grouped s ds)
    (hr : TLayoutEnd r) :
    (decimal ds < 2 ^ 63 →
      TomlOk (fun n => parseToml o n (k ++ " = ".toList ++ s ++ r)) [(k, .num (o.ofU64 (decimal ds)))] ∧
      TomlOk (fun n => parseToml o n (k ++ " = +".toList ++ s ++ r)) [(k, .num (o.ofU64 (decimal ds)))]) ∧
    (decimal ds ≤ 2 ^ 63 →
      TomlOk (fun n => parseToml o n (k ++ " = -".toList ++ s ++ r)) [(k, .num (o.ofI64 (-(decimal ds : Int))))]) := by
  have hnb : NotBefore (fun c => Bare c ∨ c = '.') r := by
    intro c hc
    have : Blank c ∨ c = '#' := by
      have lay : ∀ {w}, TLayout w → ∀ r', w.head? = some r' → Blank r' ∨ r' = '#' := by
        intro w hw r' h
        cases hw with
        | nil => cases h
        | space hb _ => cases h; exact .inl hb
        | comment _ _ _ => cases h; exact .inr rfl
      rcases hr with hw | ⟨a, b, ha, _, _, rfl⟩
      · exact lay hw c hc
      · cases a with
        | nil => cases hc; exact .inr rfl
        | cons x a => exact lay ha c (by simpa using hc)
    rcases this with (rfl | rfl | rfl | rfl) | rfl <;> decide
  have key : ∀ {sg : List Char} {v : Toml} {t : TTok}, TSpell o (sg ++ s) r t → TValue o v [t] →
      TomlOk (fun n => parseToml o n (k ++ (" = ".toList ++ sg) ++ s ++ r)) [(k, v)] := by
    intro sg v t h1 h2
    refine toml_value h2 ⟨r, hr, ?_⟩
    refine .at [] k (" = ".toList ++ sg ++ s ++ r) (by simp) .nil (hk _ (terminated_ok (by rfl))) ?_
    refine .at [' '] ['='] (' ' :: (sg ++ s ++ r)) (by simp) (lay1 (.inl rfl)) .equals ?_
    exact .at [' '] (sg ++ s) r (by simp) (lay1 (.inl rfl)) h1 .nil
  refine ⟨fun hd => ⟨?_, ?_⟩, fun hd => ?_⟩
  · exact key (sg := []) (.pos (.inl rfl) hs hd hnb) .nat
  · exact key (sg := ['+']) (.pos (.inr rfl) hs hd hnb) .nat
  · exact key (sg := ['-']) (.neg hs hd hnb) .int

/-- **C54**: an integer literal outside the range of `i64` where a value is expected is an error. -/
theorem C54_toml_integer_range {doc : List Stmt} {txt w sg s ds r : List Char} (h : TUpTo o doc txt (w ++ (sg ++ s ++ r)))
    (hc : ¬ Clashes doc) (hw : TLayout w) (hs : Grouped s ds) (hr : NotBefore (fun c => Bare c ∨ c = '.') r)
    (hb : (sg = [] ∨ sg = ['+']) ∧ 2 ^ 63 ≤ decimal ds ∨ sg = ['-'] ∧ 2 ^ 63 < decimal ds) :
    ∃ line col, TomlFails (fun n => parseToml o n txt) (.parse "tokenizer".toList) line col := by
  refine parse_bad h hc fun _ hc' => tNext_err hw ?_ (fun _ h => tTok_big hs hr hb h) hc'
  obtain ⟨⟨d, t, rfl, hd⟩, _⟩ := hs
  have : ∀ c, Digit c → ¬ (Blank c ∨ c = '#') := by
    rintro c hc ((rfl | rfl | rfl | rfl) | rfl) <;> revert hc <;> decide
  intro c hh
  rcases hb with ⟨rfl | rfl, _⟩ | ⟨rfl, _⟩
  · cases hh; exact this _ hd
  · cases hh; decide
  · cases hh; decide

example : TomlOk (fun n => parseToml toyToml n (chars "k = -9_223_372_036_854_775_808"))
    [(chars "k", .num (toyToml.ofI64 (-9223372036854775808)))] :=
  (C54_toml_integer (o := toyToml) (k := chars "k") (s := chars "9_223_372_036_854_775_808") (ds := chars "9223372036854775808") (r := [])
    (key1 (by decide) (by decide) (by decide))
    ⟨⟨'9', chars "_223_372_036_854_775_808", by decide, by decide⟩, by decide, by decide⟩ (.inl .nil)).2 (by decide)

example : ∃ line col, TomlFails (fun n => parseToml toyToml n (chars "k = 9223372036854775808")) (.parse "tokenizer".toList) line col :=
  C54_toml_integer_range (w := [' ']) (sg := []) (s := chars "9223372036854775808") (ds := chars "9223372036854775808") (r := []) upTo1 noClash_nil
    (lay1 (.inl rfl)) ⟨⟨'9', chars "223372036854775808", by decide, by decide⟩, by decide, by decide⟩ (notBefore_ok (by decide))
    (.inl ⟨.inl rfl, by decide⟩)

/-! ## C55 -/

theorem parseToml_pos (n : Nat) (input : List Char) :
    (TomlRel.sim (linePosRel input) o).Out (parseToml o n input) (parseToml o n input) := by
  refine (TomlRel.good (linePosRel input) o).loop (Nat.le_refl n) _ _ _ ⟨rfl, ⟨[], by simpa using (tInit_txt input).symm, ?_⟩, ?_⟩
  · cases input with
    | nil => simp [Cur.next, newlines]
    | cons x t => by_cases hx : x = '\n' <;> simp [Cur.next, hx, newlines]
  · cases input with
    | nil => simp [Cur.next]
    | cons x t => by_cases hx : x = '\n' <;> simp [Cur.next, hx, rcol]

/-- **C55**: the line of an error is the number of newlines read when it was detected, up to and including
the current character (the text from which on is `s.txt`), and the column is always 0. -/
theorem C55_toml_error_position {txt : List Char} {n : Nat} {e : TErr} {s : Cur} (h : parseToml o n txt = .err e s) :
    (∃ rd, txt = rd ++ s.txt.drop 1 ∧ e.line = newlines rd) ∧ e.col = 0 := by
  have hp := parseToml_pos (o := o) n txt
  have hx := tLoop_exact n _ _ _ _ h
  rw [h] at hp
  obtain ⟨_, ⟨_, ⟨pre, h1, h2⟩, h3⟩⟩ := hp
  refine ⟨⟨pre ++ s.txt.take 1, ?_, by rw [hx.1, h2]⟩, by rw [hx.2, h3]⟩
  rw [List.append_assoc, List.take_append_drop]; exact h1

/-- C55: `k=1⏎l=$` fails at line 1 (the second), column 0. -/
example : ∃ e s, parseToml toyToml 9 (chars "k=1\nl=$") = .err e s ∧ e.line = 1 ∧ e.col = 0 ∧ s.txt = ['$'] := by
  obtain ⟨e, s, h, g⟩ := Out.errSat_spec (o := parseToml toyToml 9 (chars "k=1\nl=$"))
    (f := fun e s => e.line == 1 && e.col == 0 && s.txt == ['$']) (by decide +kernel)
  simp only [Bool.and_eq_true, beq_iff_eq] at g
  exact ⟨e, s, h, g.1.1, g.1.2, g.2⟩

end NS
