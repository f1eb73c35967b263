import Verif.Lemmas.TomlLex
import Verif.Lemmas.Monad
/-! The TOML parser on well-formed documents. -/
namespace NS

/-- Keys in strictly increasing order, as in every `BTreeMap`. -/
def KSorted (m : TMap) : Prop := m.Pairwise fun a b => strLt a.1 b.1 = true

/-- The map `m` binds exactly what the assignments leave. -/
def KHolding (m : TMap) (as : List (List Char × Toml)) : Prop :=
  KSorted m ∧ ∀ k, tGet k m = lastAssigned k as

/-- The map a document stands for: under the name of a `[[..]]` header the array of the tables
with that name in order, under other keys the value last assigned. -/
def KStands (doc : List Stmt) (m : TMap) : Prop :=
  KSorted m ∧ ∀ k,
    (k ∉ (tables doc).map Prod.fst → tGet k m = lastAssigned k (assigns [] doc)) ∧
    (k ∈ (tables doc).map Prod.fst → ∃ ts, tGet k m = some (.array ts) ∧
      Matching KHolding ts (((tables doc).filter (fun t => t.1 == k)).map Prod.snd))


/-! ## Maps -/

theorem strLt_irrefl (s : List Char) : strLt s s = false := by
  induction s with
  | nil => rfl
  | cons a s ih => simp [strLt, ih]

theorem strLt_trans : ∀ {a b c : List Char}, strLt a b = true → strLt b c = true → strLt a c = true
  | [], _, [], _, h => by cases ‹List Char› <;> simp [strLt] at h
  | [], _, _ :: _, _, _ => rfl
  | _ :: _, [], _, h, _ => by simp [strLt] at h
  | _ :: _, _ :: _, [], _, h => by simp [strLt] at h
  | x :: a, y :: b, z :: c, h, g => by
    simp only [strLt] at h g ⊢
    split at h
    · split at g
      · rw [if_pos (by omega)]
      · split at g
        · cases g
        · rw [if_pos (by omega)]
    · split at h
      · cases h
      · split at g
        · rw [if_pos (by omega)]
        · split at g
          · cases g
          · rw [if_neg (by omega), if_neg (by omega)]
            exact strLt_trans h g

theorem strLt_total : ∀ (a b : List Char), a = b ∨ strLt a b = true ∨ strLt b a = true
  | [], [] => .inl rfl
  | [], _ :: _ => .inr (.inl rfl)
  | _ :: _, [] => .inr (.inr rfl)
  | x :: a, y :: b => by
    rcases Nat.lt_trichotomy x.toNat y.toNat with h | h | h
    · exact .inr (.inl (by simp [strLt, h]))
    · have e : x = y := by
        rw [← Char.ofNat_toNat x, h, Char.ofNat_toNat]
      subst e
      rcases strLt_total a b with h | h | h
      · exact .inl (by rw [h])
      · exact .inr (.inl (by simp [strLt, h]))
      · exact .inr (.inr (by simp [strLt, h]))
    · exact .inr (.inr (by simp [strLt, h]))

theorem tGet_insert (k k' : List Char) (v : Toml) (m : TMap) :
    tGet k (tInsert k' v m) = if k' = k then some v else tGet k m := by
  induction m with
  | nil => simp [tInsert, tGet]
  | cons e m ih =>
    simp only [tInsert]
    split
    · rename_i h; subst h
      simp only [tGet]
      split
      · rfl
      · simp_all
    · split
      · simp only [tGet]
      · simp only [tGet, ih]
        split
        · rename_i h1 h2 h3
          rw [if_neg (by intro e'; exact h1 (h3.trans e'.symm))]
        · rfl

theorem mem_tInsert {k : List Char} {v : Toml} {m : TMap} {e} (h : e ∈ tInsert k v m) : e = (k, v) ∨ e ∈ m := by
  induction m with
  | nil => simpa [tInsert] using h
  | cons x m ih =>
    simp only [tInsert] at h
    split at h
    · rcases List.mem_cons.1 h with h | h
      · exact .inl h
      · exact .inr (List.mem_cons_of_mem _ h)
    · split at h
      · rcases List.mem_cons.1 h with h | h
        · exact .inl h
        · exact .inr h
      · rcases List.mem_cons.1 h with h | h
        · exact .inr (by rw [h]; exact List.mem_cons_self ..)
        · exact (ih h).imp id (List.mem_cons_of_mem _)

theorem tSorted_insert (k : List Char) (v : Toml) {m : TMap} (h : KSorted m) : KSorted (tInsert k v m) := by
  unfold KSorted at *
  induction m with
  | nil => simp [tInsert]
  | cons x m ih =>
    obtain ⟨h1, h2⟩ := List.pairwise_cons.1 h
    simp only [tInsert]
    split
    · rename_i e
      exact List.pairwise_cons.2 ⟨fun y hy => by simpa [← e] using h1 y hy, h2⟩
    · rename_i ne
      split
      · rename_i lt
        refine List.pairwise_cons.2 ⟨?_, h⟩
        intro y hy
        rcases List.mem_cons.1 hy with e | e
        · rw [e]; exact lt
        · exact strLt_trans lt (h1 y e)
      · rename_i nlt
        refine List.pairwise_cons.2 ⟨?_, ih h2⟩
        intro y hy
        rcases mem_tInsert hy with e | e
        · rw [e]
          rcases strLt_total x.1 k with h | h | h
          · exact absurd h ne
          · exact h
          · exact absurd h nlt
        · exact h1 y e

theorem tGet_none_of_lt {k : List Char} {m : TMap} (h : ∀ e ∈ m, strLt k e.1 = true) : tGet k m = none := by
  induction m with
  | nil => rfl
  | cons x m ih =>
    have hx := h x (List.mem_cons_self ..)
    have : x.1 ≠ k := by intro e; rw [e, strLt_irrefl] at hx; cases hx
    rw [tGet, if_neg this]
    exact ih fun e he => h e (List.mem_cons_of_mem _ he)

/-- A sorted map is determined by its bindings. -/
theorem tSorted_ext : ∀ {a b : TMap}, KSorted a → KSorted b → (∀ k, tGet k a = tGet k b) → a = b
  | [], [], _, _, _ => rfl
  | [], y :: b, _, _, h => by have := h y.1; simp [tGet] at this
  | x :: a, [], _, _, h => by have := h x.1; simp [tGet] at this
  | x :: a, y :: b, ha, hb, h => by
    obtain ⟨a1, a2⟩ := List.pairwise_cons.1 ha
    obtain ⟨b1, b2⟩ := List.pairwise_cons.1 hb
    have e1 : x.1 = y.1 := by
      rcases strLt_total x.1 y.1 with e | e | e
      · exact e
      · have := h x.1
        rw [tGet_none_of_lt (m := y :: b)] at this
        · simp [tGet] at this
        · intro z hz
          rcases List.mem_cons.1 hz with e' | e'
          · rw [e']; exact e
          · exact strLt_trans e (b1 z e')
      · have := h y.1
        rw [tGet_none_of_lt (m := x :: a)] at this
        · simp [tGet] at this
        · intro z hz
          rcases List.mem_cons.1 hz with e' | e'
          · rw [e']; exact e
          · exact strLt_trans e (a1 z e')
    have e2 : x.2 = y.2 := by
      have := h x.1
      simpa [tGet, e1] using this
    have e3 : a = b := by
      refine tSorted_ext a2 b2 fun k => ?_
      by_cases hk : x.1 = k
      · rw [tGet_none_of_lt (m := a) (by rw [← hk]; exact a1), tGet_none_of_lt (m := b) (by rw [← hk, e1]; exact b1)]
      · have := h k
        simpa [tGet, hk, ← e1] using this
    obtain ⟨x1, x2⟩ := x
    obtain ⟨y1, y2⟩ := y
    simp only at e1 e2
    rw [e1, e2, e3]

theorem lastAssigned_append (k : List Char) (as : List (List Char × Toml)) (q : List Char) (v : Toml) :
    lastAssigned k (as ++ [(q, v)]) = if q = k then some v else lastAssigned k as := by
  simp only [lastAssigned, List.reverse_append, List.reverse_cons, List.reverse_nil, List.nil_append, List.cons_append,
    List.find?_cons]
  by_cases h : q = k
  · simp [h]
  · rw [show (q == k) = false by simpa using h]
    simp [h]

theorem lastAssigned_none {k : List Char} {as : List (List Char × Toml)} :
    lastAssigned k as = none ↔ ∀ v, (k, v) ∉ as := by
  simp only [lastAssigned, Option.map_eq_none_iff, List.find?_eq_none, List.mem_reverse]
  constructor
  · intro h v hv
    exact h (k, v) hv (by simp)
  · intro h x hx e
    have e : x.1 = k := by simpa using e
    exact h x.2 (by rw [← e]; exact hx)

theorem lastAssigned_mem {k : List Char} {as : List (List Char × Toml)} {v : Toml}
    (h : lastAssigned k as = some v) : (k, v) ∈ as := by
  simp only [lastAssigned, Option.map_eq_some_iff] at h
  obtain ⟨x, h1, h2⟩ := h
  have := List.mem_of_find?_eq_some h1
  have e : x.1 = k := by simpa using List.find?_some h1
  rw [← e, ← h2]
  simpa using this

theorem KHolding.nil : KHolding [] [] := ⟨List.Pairwise.nil, fun _ => rfl⟩

theorem KHolding.insert {m : TMap} {as} (h : KHolding m as) (k : List Char) (v : Toml) :
    KHolding (tInsert k v m) (as ++ [(k, v)]) :=
  ⟨tSorted_insert k v h.1, fun k' => by rw [tGet_insert, lastAssigned_append, h.2]⟩

/-! ## Statements as state changes -/

/-- The effect of a statement. -/
def TOut.step (u : TOut) : Stmt → Option TOut
  | .sect s => some { u with scope := s }
  | .table n => (u.startArray n).map fun u => { u with scope := [] }
  | .assign k v => u.put (if u.scope ≠ [] then u.scope ++ '.' :: k else k) v

/-- The effect of statements. -/
def TOut.run (u : TOut) : List Stmt → Option TOut
  | [] => some u
  | x :: xs => match u.step x with
    | some u' => u'.run xs
    | none => none

/-- Values that are not arrays of tables. -/
def Toml.isTables : Toml → Bool
  | .array _ => true
  | _ => false

/-- No value assigned in the document is an array of tables (there is no syntax for such a value). -/
def Plain (doc : List Stmt) : Prop := ∀ k v, Stmt.assign k v ∈ doc → v.isTables = false

/-- What a map must be, given the assignments to the root and the tables. -/
def StandsFor (as : List (List Char × Toml)) (T : List (List Char × List (List Char × Toml))) (m : TMap) : Prop :=
  KSorted m ∧ ∀ k,
    (k ∉ T.map Prod.fst → tGet k m = lastAssigned k as) ∧
    (k ∈ T.map Prod.fst → ∃ ts, tGet k m = some (.array ts) ∧
      Matching KHolding ts ((T.filter (fun t => t.1 == k)).map Prod.snd))

theorem Matching.length {α β : Type} {R : α → β → Prop} {a b} (h : Matching R a b) : a.length = b.length := by
  induction h <;> simp_all

theorem Matching.append {α β : Type} {R : α → β → Prop} {a b c d} (h : Matching R a b) (g : Matching R c d) :
    Matching R (a ++ c) (b ++ d) := by
  induction h with
  | nil => exact g
  | cons r _ ih => exact .cons r ih

theorem Matching.split {α β : Type} {R : α → β → Prop} {b d : List β} : ∀ {a : List α}, Matching R a (b ++ d) →
    ∃ a1 a2, a = a1 ++ a2 ∧ Matching R a1 b ∧ Matching R a2 d := by
  induction b with
  | nil => intro a h; exact ⟨[], a, rfl, .nil, h⟩
  | cons x b ih =>
    intro a h
    cases h with
    | cons r h =>
      obtain ⟨a1, a2, rfl, h1, h2⟩ := ih h
      exact ⟨_ :: a1, a2, rfl, .cons r h1, h2⟩

/-- Running statements inside the body of a table. -/
theorem run_tables {as : List (List Char × Toml)} (has : ∀ k v, (k, v) ∈ as → v.isTables = false)
    {doc : List Stmt} (hd : Plain doc) :
    ∀ {u : TOut} {T0 : List (List Char × List (List Char × Toml))} {n : List Char} {cur : List (List Char × Toml)},
      StandsFor as (T0 ++ [(n, cur)]) u.out →
      (∀ k ∈ (T0 ++ [(n, cur)]).map Prod.fst, ∀ v, (k, v) ∉ as) →
      u.active = some (n, (T0.filter (fun t => t.1 == n)).length) →
      ((∃ m bs, (m, bs) ∈ tables doc ∧ ∃ v, (m, v) ∈ as) → u.run doc = none) ∧
      ((¬ ∃ m bs, (m, bs) ∈ tables doc ∧ ∃ v, (m, v) ∈ as) → ∃ u', u.run doc = some u' ∧
        StandsFor as (T0 ++ [(n, cur ++ assigns u.scope doc)] ++ tables doc) u'.out) := by
  induction doc with
  | nil =>
    intro u T0 n cur h _ _
    refine ⟨?_, fun _ => ⟨u, rfl, by simpa [assigns, tables] using h⟩⟩
    rintro ⟨m, bs, hm, _⟩
    simp [tables] at hm
  | cons x doc ih =>
    intro u T0 n cur h hdis hact
    have hd' : Plain doc := fun k v hk => hd k v (List.mem_cons_of_mem _ hk)
    cases x with
    | sect s =>
      obtain ⟨a, b⟩ := ih hd' (u := { u with scope := s }) h hdis hact
      exact ⟨a, b⟩
    | assign k v =>
      obtain ⟨ts, hg, hm⟩ := (h.2 n).2 (by simp)
      have hf : ((T0 ++ [(n, cur)]).filter (fun t => t.1 == n)).map Prod.snd =
          (T0.filter (fun t => t.1 == n)).map Prod.snd ++ [cur] := by simp
      rw [hf] at hm
      obtain ⟨ts1, ts2, rfl, h1, h2⟩ := hm.split
      cases h2 with
      | @cons m _ ts2 _ hmc h2 =>
        cases h2
        have hlen : ts1.length = (T0.filter (fun t => t.1 == n)).length := by
          rw [h1.length, List.length_map]
        have hstep : u.step (.assign k v) = some { u with
            out := tInsert n (.array (ts1 ++ [tInsert (qualified u.scope k) v m])) u.out } := by
          have hq : (if u.scope ≠ [] then u.scope ++ '.' :: k else k) = qualified u.scope k := by
            unfold qualified; split <;> simp_all
          simp only [TOut.step, TOut.put, hact, hg, hq]
          rw [← hlen]
          simp
        have key := ih hd' (u := { u with out := tInsert n (.array (ts1 ++ [tInsert (qualified u.scope k) v m])) u.out })
          (T0 := T0) (n := n) (cur := cur ++ [(qualified u.scope k, v)]) ?_ (by simpa using hdis) hact
        · simp only [TOut.run, hstep]
          refine ⟨fun hh => key.1 hh, fun hh => ?_⟩
          obtain ⟨u', e1, e2⟩ := key.2 hh
          refine ⟨u', e1, ?_⟩
          simpa [assigns, tables, List.append_assoc] using e2
        · refine ⟨tSorted_insert _ _ h.1, fun k' => ⟨fun hk => ?_, fun hk => ?_⟩⟩
          · have hne : n ≠ k' := by intro e; apply hk; simp [e]
            rw [tGet_insert, if_neg hne]
            exact (h.2 k').1 (by simpa using hk)
          · by_cases hne : n = k'
            · subst hne
              refine ⟨_, by rw [tGet_insert, if_pos rfl], ?_⟩
              have : ((T0 ++ [(n, cur ++ [(qualified u.scope k, v)])]).filter (fun t => t.1 == n)).map Prod.snd =
                (T0.filter (fun t => t.1 == n)).map Prod.snd ++ [cur ++ [(qualified u.scope k, v)]] := by simp
              rw [this]
              exact h1.append (.cons (hmc.insert _ _) .nil)
            · obtain ⟨ts', g1, g2⟩ := (h.2 k').2 (by simpa using hk)
              refine ⟨ts', by rw [tGet_insert, if_neg hne]; exact g1, ?_⟩
              have e : ∀ z, ((T0 ++ [(n, z)]).filter (fun t => t.1 == k')) = T0.filter (fun t => t.1 == k') := by
                intro z; simp [hne]
              rw [e] at g2 ⊢
              exact g2
    | table m =>
      by_cases hm : ∃ v, (m, v) ∈ as
      · -- a clash
        have hnot : m ∉ (T0 ++ [(n, cur)]).map Prod.fst := fun hk => by
          obtain ⟨v, hv⟩ := hm
          exact hdis m hk v hv
        have hg := (h.2 m).1 hnot
        obtain ⟨v, hv⟩ : ∃ v, lastAssigned m as = some v := by
          cases e : lastAssigned m as with
          | some v => exact ⟨v, rfl⟩
          | none =>
            obtain ⟨v, hv⟩ := hm
            exact absurd hv (lastAssigned_none.1 e v)
        have hpl := has m v (lastAssigned_mem hv)
        rw [hv] at hg
        have hstep : u.step (.table m) = none := by
          simp only [TOut.step, TOut.startArray, hg]
          cases v <;> simp_all [Toml.isTables]
        refine ⟨fun _ => by simp [TOut.run, hstep], fun hh => absurd ⟨m, _, by rw [tables]; exact List.mem_cons_self .., hm⟩ hh⟩
      · -- a new table
        have hm' : ∀ v, (m, v) ∉ as := fun v hv => hm ⟨v, hv⟩
        have hget : ∃ ts, Matching KHolding ts (((T0 ++ [(n, cur)]).filter (fun t => t.1 == m)).map Prod.snd) ∧
            u.step (.table m) = some ⟨tInsert m (.array (ts ++ [[]]))
              (if (tGet m u.out).isNone then tInsert m (.array []) u.out else u.out), some (m, ts.length), []⟩ := by
          by_cases hk : m ∈ (T0 ++ [(n, cur)]).map Prod.fst
          · obtain ⟨ts, g1, g2⟩ := (h.2 m).2 hk
            refine ⟨ts, g2, ?_⟩
            simp [TOut.step, TOut.startArray, g1]
          · have g := (h.2 m).1 hk
            rw [lastAssigned_none.2 hm'] at g
            refine ⟨[], ?_, ?_⟩
            · have : (T0 ++ [(n, cur)]).filter (fun t => t.1 == m) = [] := by
                apply List.filter_eq_nil_iff.2
                intro x hx e
                have e : x.1 = m := by simpa using e
                exact hk (List.mem_map.2 ⟨x, hx, e⟩)
              rw [this]; exact .nil
            · simp [TOut.step, TOut.startArray, g, tGet_insert]
        obtain ⟨ts, hts, hstep⟩ := hget
        have hlen : ts.length = ((T0 ++ [(n, cur)]).filter (fun t => t.1 == m)).length := by
          rw [hts.length, List.length_map]
        have key := ih hd' (u := ⟨tInsert m (.array (ts ++ [[]]))
              (if (tGet m u.out).isNone then tInsert m (.array []) u.out else u.out), some (m, ts.length), []⟩)
          (T0 := T0 ++ [(n, cur)]) (n := m) (cur := []) ?_ ?_ (by simp only [hlen])
        · simp only [TOut.run, hstep]
          refine ⟨?_, ?_⟩
          · rintro ⟨m', bs, h1, h2⟩
            rw [tables] at h1
            rcases List.mem_cons.1 h1 with e | e
            · injection e with e _
              subst e
              exact absurd h2 hm
            · exact key.1 ⟨m', bs, e, h2⟩
          · intro hh
            obtain ⟨u', e1, e2⟩ := key.2 (fun ⟨m', bs, h1, h2⟩ => hh ⟨m', bs, by rw [tables]; exact List.mem_cons_of_mem _ h1, h2⟩)
            refine ⟨u', e1, ?_⟩
            simpa [assigns, tables, List.append_assoc] using e2
        · refine ⟨tSorted_insert _ _ ?_, fun k' => ⟨fun hk => ?_, fun hk => ?_⟩⟩
          · split
            · exact tSorted_insert _ _ h.1
            · exact h.1
          · have hne : m ≠ k' := by intro e; apply hk; simp [e]
            rw [tGet_insert, if_neg hne]
            have := (h.2 k').1 (by
              intro hc; apply hk
              rw [List.map_append]
              exact List.mem_append_left _ hc)
            split
            · rw [tGet_insert, if_neg hne]; exact this
            · exact this
          · by_cases hne : m = k'
            · subst hne
              refine ⟨_, by rw [tGet_insert, if_pos rfl], ?_⟩
              have : ((T0 ++ [(n, cur)] ++ [(m, ([] : List (List Char × Toml)))]).filter (fun t => t.1 == m)).map Prod.snd =
                ((T0 ++ [(n, cur)]).filter (fun t => t.1 == m)).map Prod.snd ++ [[]] := by
                rw [List.filter_append, List.map_append]; simp
              rw [this]
              exact hts.append (.cons KHolding.nil .nil)
            · obtain ⟨ts', g1, g2⟩ := (h.2 k').2 (by
                rw [List.map_append] at hk
                rcases List.mem_append.1 hk with hk | hk
                · exact hk
                · exact absurd (by simpa using hk) (Ne.symm hne))
              refine ⟨ts', ?_, ?_⟩
              · rw [tGet_insert, if_neg hne]
                split
                · rw [tGet_insert, if_neg hne]; exact g1
                · exact g1
              · have e : (T0 ++ [(n, cur)] ++ [(m, [])]).filter (fun t => t.1 == k') =
                    (T0 ++ [(n, cur)]).filter (fun t => t.1 == k') := by
                  rw [List.filter_append]; simp [hne]
                rw [e]
                exact g2
        · intro k hk v hv
          rw [List.map_append] at hk
          rcases List.mem_append.1 hk with hk | hk
          · exact hdis k hk v hv
          · rw [show k = m by simpa using hk] at hv
            exact hm' v hv

/-- Running statements before the first table. -/
theorem run_root {doc : List Stmt} (hd : Plain doc) :
    ∀ {u : TOut} {as : List (List Char × Toml)}, KHolding u.out as → (∀ k v, (k, v) ∈ as → v.isTables = false) →
      u.active = none →
      ((∃ m bs, (m, bs) ∈ tables doc ∧ ∃ v, (m, v) ∈ as ++ assigns u.scope doc) → u.run doc = none) ∧
      ((¬ ∃ m bs, (m, bs) ∈ tables doc ∧ ∃ v, (m, v) ∈ as ++ assigns u.scope doc) → ∃ u', u.run doc = some u' ∧
        StandsFor (as ++ assigns u.scope doc) (tables doc) u'.out) := by
  induction doc with
  | nil =>
    intro u as h _ _
    refine ⟨?_, fun _ => ⟨u, rfl, h.1, fun k => ⟨fun _ => by simpa [assigns] using h.2 k, fun hk => by simp [tables] at hk⟩⟩⟩
    rintro ⟨m, bs, hm, _⟩
    simp [tables] at hm
  | cons x doc ih =>
    intro u as h has hact
    have hd' : Plain doc := fun k v hk => hd k v (List.mem_cons_of_mem _ hk)
    cases x with
    | sect s => exact ih hd' (u := { u with scope := s }) h has hact
    | assign k v =>
      have hq : (if u.scope ≠ [] then u.scope ++ '.' :: k else k) = qualified u.scope k := by
        unfold qualified; split <;> simp_all
      have hstep : u.step (.assign k v) = some { u with out := tInsert (qualified u.scope k) v u.out } := by
        simp only [TOut.step, TOut.put, hact, hq]
      have key := ih hd' (u := { u with out := tInsert (qualified u.scope k) v u.out }) (h.insert _ _) (by
        intro k' v' hk'
        rcases List.mem_append.1 hk' with e | e
        · exact has k' v' e
        · have e : k' = qualified u.scope k ∧ v' = v := by simpa using e
          rw [e.2]
          exact hd k v (List.mem_cons_self ..)) hact
      simp only [TOut.run, hstep]
      simpa [assigns, tables, List.append_assoc] using key
    | table m =>
      simp only [assigns, List.append_nil]
      have hgm := h.2 m
      by_cases hm : ∃ v, (m, v) ∈ as
      · obtain ⟨v, hv⟩ : ∃ v, lastAssigned m as = some v := by
          cases e : lastAssigned m as with
          | some v => exact ⟨v, rfl⟩
          | none =>
            obtain ⟨v, hv⟩ := hm
            exact absurd hv (lastAssigned_none.1 e v)
        have hpl := has m v (lastAssigned_mem hv)
        rw [hv] at hgm
        have hstep : u.step (.table m) = none := by
          simp only [TOut.step, TOut.startArray, hgm]
          cases v <;> simp_all [Toml.isTables]
        refine ⟨fun _ => by simp [TOut.run, hstep], fun hh => absurd ⟨m, _, by rw [tables]; exact List.mem_cons_self .., hm⟩ hh⟩
      · have hm' : ∀ v, (m, v) ∉ as := fun v hv => hm ⟨v, hv⟩
        rw [lastAssigned_none.2 hm'] at hgm
        have hstep : u.step (.table m) = some ⟨tInsert m (.array [[]]) (tInsert m (.array []) u.out), some (m, 0), []⟩ := by
          simp [TOut.step, TOut.startArray, hgm, tGet_insert]
        have key := run_tables has hd' (u := ⟨tInsert m (.array [[]]) (tInsert m (.array []) u.out), some (m, 0), []⟩)
          (T0 := []) (n := m) (cur := []) ?_ (by intro k hk v hv; rw [show k = m by simpa using hk] at hv; exact hm' v hv) rfl
        · simp only [TOut.run, hstep]
          refine ⟨?_, ?_⟩
          · rintro ⟨m', bs, h1, h2⟩
            rw [tables] at h1
            rcases List.mem_cons.1 h1 with e | e
            · injection e with e _
              subst e
              exact absurd h2 hm
            · exact key.1 ⟨m', bs, e, h2⟩
          · intro hh
            obtain ⟨u', e1, e2⟩ := key.2 (fun ⟨m', bs, h1, h2⟩ => hh ⟨m', bs, by rw [tables]; exact List.mem_cons_of_mem _ h1, h2⟩)
            refine ⟨u', e1, ?_⟩
            simpa [tables] using e2
        · refine ⟨tSorted_insert _ _ (tSorted_insert _ _ h.1), fun k' => ⟨fun hk => ?_, fun hk => ?_⟩⟩
          · have hne : m ≠ k' := by intro e; apply hk; simp [e]
            rw [tGet_insert, if_neg hne, tGet_insert, if_neg hne]
            exact h.2 k'
          · have hne : m = k' := by simpa [eq_comm] using hk
            subst hne
            refine ⟨[[]], by rw [tGet_insert, if_pos rfl], ?_⟩
            simpa using Matching.cons KHolding.nil .nil

/-- The whole document. -/
theorem run_doc {doc : List Stmt} (hd : Plain doc) :
    (Clashes doc → (TOut.mk [] none []).run doc = none) ∧
    (¬ Clashes doc → ∃ u, (TOut.mk [] none []).run doc = some u ∧ KStands doc u.out) := by
  have := run_root hd (u := ⟨[], none, []⟩) (as := []) KHolding.nil (by simp) rfl
  simpa [Clashes, KStands, StandsFor] using this

/-! ## Reading -/

/-- From `c` on the tokens `ts` are read, ending at `c'`. -/
inductive Feeds (o : TomlOps) : List TTok → Cur → Cur → Prop where
  | nil {c} : Feeds o [] c c
  | cons {t ts c c1 c2} : tNext o c = .ok t c1 → Feeds o ts c1 c2 → Feeds o (t :: ts) c c2

theorem Feeds.split {o : TomlOps} {a b : List TTok} : ∀ {c c2 : Cur}, Feeds o (a ++ b) c c2 →
    ∃ c1, Feeds o a c c1 ∧ Feeds o b c1 c2 := by
  induction a with
  | nil => intro c c2 h; exact ⟨c, .nil, h⟩
  | cons t a ih =>
    intro c c2 h
    cases h with
    | cons e h =>
      obtain ⟨c1, h1, h2⟩ := ih h
      exact ⟨c1, .cons e h1, h2⟩

theorem TDoc.feeds {o : TomlOps} {ts : List TTok} {txt tail : List Char} (h : TDoc o ts txt tail) :
    ∀ {c : Cur}, c.txt = txt → ∃ c', Feeds o ts c c' ∧ c'.txt = tail := by
  induction h with
  | nil => intro c hc; exact ⟨c, .nil, hc⟩
  | cons hw hs _ ih =>
    intro c hc
    obtain ⟨c1, e, h1⟩ := tNext_spell hw hs hc
    obtain ⟨c2, h2, h3⟩ := ih h1
    exact ⟨c2, .cons e h2, h3⟩

/-- Reading a value whose first token is `t`. -/
def ReadsVal (o : TomlOps) (v : Toml) (ts : List TTok) : Prop :=
  ∃ t ts', ts = t :: ts' ∧ t ≠ .comma ∧ t ≠ .blockClose ∧ t ≠ .eof ∧
    ∀ c c', Feeds o ts' c c' → ∃ N, ∀ n, N ≤ n → tVal o n t c = .ok v c'

/-- Reading the elements of an array and its end. -/
def ReadsElems (o : TomlOps) (vs : List Toml) (ts : List TTok) : Prop :=
  ∀ acc c c', Feeds o (ts ++ [.blockClose]) c c' → ∃ N, ∀ n, N ≤ n → tVals o n acc c = .ok (acc ++ vs) c'

theorem readsVal_one {o : TomlOps} {v : Toml} {t : TTok} (h1 : t ≠ .comma) (h2 : t ≠ .blockClose) (h3 : t ≠ .eof)
    (h : ∀ n c, tVal o (n + 1) t c = .ok v c) : ReadsVal o v [t] := by
  refine ⟨t, [], rfl, h1, h2, h3, ?_⟩
  intro c c' hf
  cases hf
  exact ⟨1, fun n hn => by obtain ⟨n, rfl⟩ : ∃ m, n = m + 1 := ⟨n - 1, by omega⟩; exact h n c⟩

theorem TValue.reads {o : TomlOps} {v : Toml} {ts : List TTok} (h : TValue o v ts) : ReadsVal o v ts := by
  refine TValue.rec (o := o) (motive_1 := fun v ts _ => ReadsVal o v ts) (motive_2 := fun vs ts _ => ReadsElems o vs ts)
    ?_ ?_ ?_ ?_ ?_ ?_ ?_ ?_ ?_ ?_ ?_ ?_ h
  · intro s; exact readsVal_one (by simp) (by simp) (by simp) fun n c => by simp [tVal, nanBits, infBits]
  · intro s; exact readsVal_one (by simp) (by simp) (by simp) fun n c => by simp [tVal, nanBits, infBits]
  · intro s; exact readsVal_one (by simp) (by simp) (by simp) fun n c => by simp [tVal, nanBits, infBits]
  · intro s; exact readsVal_one (by simp) (by simp) (by simp) fun n c => by simp [tVal, nanBits, infBits]
  · intro s; exact readsVal_one (by simp) (by simp) (by simp) fun n c => by simp [tVal, nanBits, infBits]
  · intro s; exact readsVal_one (by simp) (by simp) (by simp) fun n c => by simp [tVal, nanBits, infBits]
  · intro s; exact readsVal_one (by simp) (by simp) (by simp) fun n c => by simp [tVal, nanBits, infBits]
  · intro s; exact readsVal_one (by simp) (by simp) (by simp) fun n c => by simp [tVal, nanBits, infBits]
  · intro vs ts _ ih
    refine ⟨.blockOpen, _, rfl, by simp, by simp, by simp, ?_⟩
    intro c c' hf
    obtain ⟨N, hN⟩ := ih [] c c' hf
    refine ⟨N + 1, fun n hn => ?_⟩
    obtain ⟨n, rfl⟩ : ∃ m, n = m + 1 := ⟨n - 1, by omega⟩
    simp only [tVal]
    rw [M.bind_ok (hN n (by omega))]
    rfl
  · intro acc c c' hf
    cases hf with
    | cons e hf =>
      cases hf
      refine ⟨1, fun n hn => ?_⟩
      obtain ⟨n, rfl⟩ : ∃ m, n = m + 1 := ⟨n - 1, by omega⟩
      simp only [tVals]
      rw [M.bind_ok e]
      simp
  · intro vs ts _ ih acc c c' hf
    cases hf with
    | cons e hf =>
      obtain ⟨N, hN⟩ := ih acc _ _ hf
      refine ⟨N + 1, fun n hn => ?_⟩
      obtain ⟨n, rfl⟩ : ∃ m, n = m + 1 := ⟨n - 1, by omega⟩
      simp only [tVals]
      rw [M.bind_ok e]
      simpa using hN n (by omega)
  · intro v ts vs ts' _ _ ih1 ih2 acc c c' hf
    obtain ⟨t, ts1, rfl, n1, n2, n3, hv⟩ := ih1
    rw [List.append_assoc, List.cons_append] at hf
    cases hf with
    | cons e hf =>
      obtain ⟨c1, g1, g2⟩ := hf.split
      obtain ⟨N1, hN1⟩ := hv _ _ g1
      obtain ⟨N2, hN2⟩ := ih2 (acc ++ [v]) _ _ g2
      refine ⟨N1 + N2 + 1, fun n hn => ?_⟩
      obtain ⟨n, rfl⟩ : ∃ m, n = m + 1 := ⟨n - 1, by omega⟩
      simp only [tVals]
      rw [M.bind_ok e, if_neg (by simp [n2, n3]), if_pos n1, M.bind_ok (hN1 n (by omega)), hN2 n (by omega)]
      simp

theorem showNat_repr (n : Nat) : showNat n = (Nat.repr n).toList := by
  simp [showNat, Nat.repr]

theorem showInt_repr (i : Int) : showInt i = (Int.repr i).toList := by
  cases i with
  | ofNat n =>
    have : ¬ ((n : Int) < 0) := by omega
    simp [showInt, showNat_repr, Int.repr, this]
  | negSucc n =>
    have : Int.negSucc n < 0 := Int.negSucc_lt_zero n
    simp only [showInt, if_pos this, Int.repr, showNat_repr, Int.natAbs_negSucc]
    simp

theorem TName.text {o : TomlOps} {t : TTok} {k : List Char} (h : TName o t k) :
    t.text o = k ∧ t.isTable = true ∧ t.isKey = true := by
  cases h <;> refine ⟨?_, rfl, rfl⟩ <;> simp [TTok.text, showNat_repr, showInt_repr]

theorem tExpect_ok {o : TomlOps} {t : TTok} {c c' : Cur} (h : tNext o c = .ok t c') :
    tExpect o t c = .ok () c' := by
  simp only [tExpect]
  rw [M.bind_ok h]
  simp

theorem orPanic_some {α : Type} {a : α} {c : Cur} : orPanic (some a) c = .ok a c := rfl
theorem orPanic_none {α : Type} {c : Cur} : orPanic (none : Option α) c = .panic := rfl

/-- Reading a statement. -/
theorem tLine_stmt {o : TomlOps} {x : Stmt} {ts : List TTok} (h : TStmt o x ts) {c c' : Cur} (hf : Feeds o ts c c')
    (u : TOut) : ∃ N, ∀ n, N ≤ n → tLine o n u c = match u.step x with
      | some u' => .ok (some u') c'
      | none => .panic := by
  have assign : ∀ t k v ts, t.text o = k → t.isKey = true → TValue o v ts → Feeds o (t :: .equals :: ts) c c' →
      ∃ N, ∀ n, N ≤ n → tLine o n u c = match u.step (.assign k v) with
      | some u' => .ok (some u') c'
      | none => .panic := by
    intro t k v ts hk ht hv hf
    obtain ⟨t1, ts1, rfl, _, _, _, hr⟩ := hv.reads
    cases hf with
    | cons e1 hf =>
    cases hf with
    | cons e2 hf =>
    cases hf with
    | cons e3 hf =>
    obtain ⟨N, hN⟩ := hr _ _ hf
    refine ⟨N, fun n hn => ?_⟩
    have h1 : t ≠ .eof := by intro e; rw [e] at ht; simp [TTok.isKey] at ht
    have h2 : t ≠ .blockOpen := by intro e; rw [e] at ht; simp [TTok.isKey] at ht
    simp only [tLine]
    rw [M.bind_ok e1, if_neg h1, if_neg h2, if_pos ht]
    simp only [tKeyValue, hk]
    cases hs : u.step (.assign k v) with
    | some u' =>
      simp only [TOut.step] at hs
      refine (M.bind_ok (s' := c') (a := u') ?_).trans rfl
      rw [M.bind_ok (tExpect_ok e2), M.bind_ok e3, M.bind_ok (hN n hn), hs]
      rfl
    | none =>
      simp only [TOut.step] at hs
      refine M.bind_panic ?_
      rw [M.bind_ok (tExpect_ok e2), M.bind_ok e3, M.bind_ok (hN n hn), hs]
      rfl
  cases h with
  | sect =>
    cases hf with
    | cons e1 hf =>
    cases hf with
    | cons e2 hf =>
    cases hf with
    | cons e3 hf =>
    cases hf
    refine ⟨0, fun n _ => ?_⟩
    simp only [tLine]
    rw [M.bind_ok e1, if_neg (by simp), if_pos rfl]
    refine (M.bind_ok (s' := c') (a := { u with scope := _ }) ?_).trans rfl
    simp only [tHeader]
    rw [M.bind_ok e2]
    exact (M.bind_ok (tExpect_ok e3)).trans rfl
  | quoted =>
    cases hf with
    | cons e1 hf =>
    cases hf with
    | cons e2 hf =>
    cases hf with
    | cons e3 hf =>
    cases hf
    refine ⟨0, fun n _ => ?_⟩
    simp only [tLine]
    rw [M.bind_ok e1, if_neg (by simp), if_pos rfl]
    refine (M.bind_ok (s' := c') (a := { u with scope := _ }) ?_).trans rfl
    simp only [tHeader]
    rw [M.bind_ok e2]
    exact (M.bind_ok (tExpect_ok e3)).trans rfl
  | @table t s hn =>
    cases hf with
    | cons e1 hf =>
    cases hf with
    | cons e2 hf =>
    cases hf with
    | cons e3 hf =>
    cases hf with
    | cons e4 hf =>
    cases hf with
    | cons e5 hf =>
    cases hf
    refine ⟨0, fun n _ => ?_⟩
    simp only [tLine]
    rw [M.bind_ok e1, if_neg (by simp), if_pos rfl]
    obtain ⟨t1, t2, _⟩ := hn.text
    simp only [TOut.step]
    cases hs : u.startArray s with
    | some u' =>
      refine (M.bind_ok (s' := c') (a := { u' with scope := [] }) ?_).trans rfl
      simp only [tHeader]
      rw [M.bind_ok e2]
      refine (M.bind_ok e3).trans ?_
      rw [if_pos t2, M.bind_ok (tExpect_ok e4), M.bind_ok (tExpect_ok e5), t1, hs]
      rfl
    | none =>
      refine M.bind_panic ?_
      simp only [tHeader]
      rw [M.bind_ok e2]
      refine (M.bind_ok e3).trans ?_
      rw [if_pos t2, M.bind_ok (tExpect_ok e4), M.bind_ok (tExpect_ok e5), t1, hs]
      rfl
  | assign hn hv => exact assign _ _ _ _ hn.text.1 hn.text.2.2 hv hf
  | quotedKey hv => exact assign _ _ _ _ rfl rfl hv hf

/-- Reading a document. -/
theorem tLoop_doc {o : TomlOps} {doc : List Stmt} {ts : List TTok} (h : TStmts o doc ts) :
    ∀ {c c' : Cur} (u : TOut), Feeds o ts c c' → ∃ N, ∀ n, N ≤ n →
      tLoop o (n + doc.length) u c = match u.run doc with
      | some u' => tLoop o n u' c'
      | none => .panic := by
  induction h with
  | nil =>
    intro c c' u hf
    cases hf
    exact ⟨0, fun n _ => rfl⟩
  | @cons x xs ts ts' hx _ ih =>
    intro c c' u hf
    obtain ⟨c1, h1, h2⟩ := hf.split
    obtain ⟨N1, hN1⟩ := tLine_stmt hx h1 u
    cases hs : u.step x with
    | none =>
      refine ⟨N1, fun n hn => ?_⟩
      have := hN1 (n + xs.length) (by omega)
      rw [hs] at this
      simp only [TOut.run, hs]
      exact M.bind_panic this
    | some u' =>
      obtain ⟨N2, hN2⟩ := ih u' h2
      refine ⟨N1 + N2, fun n hn => ?_⟩
      have := hN1 (n + xs.length) (by omega)
      rw [hs] at this
      simp only [TOut.run, hs]
      refine Eq.trans ?_ (hN2 n (by omega))
      exact (M.bind_ok this).trans rfl

theorem TStmts.plain {o : TomlOps} {doc : List Stmt} {ts : List TTok} (h : TStmts o doc ts) : Plain doc := by
  have hv : ∀ v ts, TValue o v ts → v.isTables = false := by
    intro v ts h; cases h <;> rfl
  induction h with
  | nil => intro k v hk; simp at hk
  | cons hx _ ih =>
    intro k v hk
    rcases List.mem_cons.1 hk with e | e
    · subst e
      cases hx with
      | assign _ h => exact hv _ _ h
      | quotedKey h => exact hv _ _ h
    · exact ih k v e

/-- Where reading begins. -/
def tInit (txt : List Char) : Cur := Cur.next rcol ⟨'\x00' :: txt, 0, 0⟩

theorem tInit_txt (txt : List Char) : (tInit txt).txt = txt := by rw [tInit, Cur.next_txt]; rfl

theorem tLoop_end {o : TomlOps} {c c' : Cur} (h : tNext o c = .ok .eof c') (n : Nat) (u : TOut) :
    tLoop o (n + 1) u c = .ok u.out c' := by
  have : tLine o n u c = .ok none c' := by
    simp only [tLine]
    rw [M.bind_ok h]
    rfl
  simp only [tLoop]
  rw [M.bind_ok this]
  rfl

/-- A document is read as it stands, or panics. -/
theorem parse_docK {o : TomlOps} {doc : List Stmt} {txt : List Char} (h : TText o doc txt) :
    (Clashes doc → TomlPanics fun n => parseToml o n txt) ∧
    (¬ Clashes doc → ∃ m, TomlOk (fun n => parseToml o n txt) m ∧ KStands doc m) := by
  obtain ⟨ts, h1, w, hw, h2⟩ := h
  obtain ⟨c', hf, hc'⟩ := h2.feeds (tInit_txt txt)
  obtain ⟨N, hN⟩ := tLoop_doc h1 ⟨[], none, []⟩ hf
  obtain ⟨r1, r2⟩ := run_doc h1.plain
  obtain ⟨d, he, _⟩ := tNext_end (o := o) hw hc'
  refine ⟨fun hc => ⟨N + doc.length, fun n hn => ?_⟩, fun hc => ?_⟩
  · have := hN (n - doc.length) (by omega)
    rw [r1 hc, show n - doc.length + doc.length = n by omega] at this
    exact this
  · obtain ⟨u, hu, hs⟩ := r2 hc
    refine ⟨u.out, ⟨N + doc.length + 1, fun n hn => ⟨d, ?_⟩⟩, hs⟩
    have := hN (n - doc.length) (by omega)
    rw [hu, show n - doc.length + doc.length = n by omega] at this
    refine this.trans ?_
    have e : n - doc.length = (n - doc.length - 1) + 1 := by omega
    simp only
    rw [e]
    exact tLoop_end he _ u

/-! ## The order of keys and membership -/

theorem strLt_iff : ∀ a b : List Char, strLt a b = true ↔ a < b
  | [], [] => by simp [strLt]
  | [], _ :: _ => by simp [strLt]
  | _ :: _, [] => by simp [strLt]
  | a :: s, b :: t => by
    have e1 : a.toNat < b.toNat ↔ a < b := by rw [Char.lt_def]; exact Iff.rfl
    have e2 : b.toNat < a.toNat ↔ b < a := by rw [Char.lt_def]; exact Iff.rfl
    simp only [strLt, List.cons_lt_cons_iff, e1, e2]
    by_cases h1 : a < b
    · simp [h1]
    · by_cases h2 : b < a
      · have : a ≠ b := by rintro rfl; exact h1 h2
        simp [h1, h2, this]
      · have : a = b := Char.ext (UInt32.le_antisymm (UInt32.not_lt.1 h2) (UInt32.not_lt.1 h1))
        subst this
        simp [h1, strLt_iff s t]

theorem tGet_mem {m : TMap} (h : KSorted m) (k : List Char) (v : Toml) : tGet k m = some v ↔ (k, v) ∈ m := by
  induction m with
  | nil => simp [tGet]
  | cons e m ih =>
    obtain ⟨h1, h2⟩ := List.pairwise_cons.1 h
    obtain ⟨k0, v0⟩ := e
    simp only [tGet, List.mem_cons, Prod.mk.injEq]
    by_cases hk : k0 = k
    · subst hk
      simp only [if_true, Option.some.injEq, true_and]
      constructor
      · rintro rfl; exact .inl rfl
      · rintro (rfl | hm)
        · rfl
        · have := (strLt_iff _ _).1 (h1 _ hm)
          exact absurd this (List.lt_irrefl _)
    · simp only [hk, if_false, ih h2]
      constructor
      · exact .inr
      · rintro (⟨rfl, _⟩ | h)
        · exact absurd rfl hk
        · exact h

theorem KSorted.pairwise {m : TMap} (h : KSorted m) : m.Pairwise (fun a b => a.1 < b.1) :=
  List.Pairwise.imp (fun h => (strLt_iff _ _).1 h) h

theorem KHolding.holding {m : TMap} {as : List (List Char × Toml)} (h : KHolding m as) : Holding m as :=
  ⟨h.1.pairwise, fun k v => by rw [← tGet_mem h.1, h.2]⟩

theorem Matching.imp {α β : Type} {R S : α → β → Prop} (h : ∀ a b, R a b → S a b) {as : List α} {bs : List β}
    (hm : Matching R as bs) : Matching S as bs := by
  induction hm with
  | nil => exact .nil
  | cons h1 _ ih => exact .cons (h _ _ h1) ih

theorem KStands.stands {doc : List Stmt} {m : TMap} (h : KStands doc m) : Stands doc m := by
  refine ⟨h.1.pairwise, fun k => ⟨fun hk v => ?_, fun hk => ?_⟩⟩
  · rw [← tGet_mem h.1, (h.2 k).1 hk]
  · obtain ⟨ts, h1, h2⟩ := (h.2 k).2 hk
    refine ⟨ts, fun v => ?_, h2.imp fun _ _ => KHolding.holding⟩
    rw [← tGet_mem h.1, h1]
    simp [eq_comm]

theorem parse_doc {o : TomlOps} {doc : List Stmt} {txt : List Char} (h : TText o doc txt) :
    (Clashes doc → TomlPanics fun n => parseToml o n txt) ∧
    (¬ Clashes doc → ∃ m, TomlOk (fun n => parseToml o n txt) m ∧ Stands doc m) := by
  refine ⟨(parse_docK h).1, fun hc => ?_⟩
  obtain ⟨m, h1, h2⟩ := (parse_docK h).2 hc
  exact ⟨m, h1, h2.stands⟩

end NS
