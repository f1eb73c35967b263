import Verif.Lemmas.TomlSound
/-! A text is a document in one way only. -/
namespace NS
variable {o : TomlOps}

mutual
/-- Reading a value off a list of tokens: the value, whether it is complete, the tokens left. -/
def rdVal (o : TomlOps) : Nat → List TTok → Option (Toml × Bool × List TTok)
  | 0, _ => none
  | n + 1, .blockOpen :: ts => (rdVals o n ts).map fun r => (.simpleArray r.1, r.2)
  | _ + 1, .str s :: ts => some (.str s, true, ts)
  | _ + 1, .u64 v :: ts => some (.num (o.ofU64 v), true, ts)
  | _ + 1, .i64 v :: ts => some (.num (o.ofI64 v), true, ts)
  | _ + 1, .f64 x :: ts => some (.num x, true, ts)
  | _ + 1, .bool b :: ts => some (.bool b, true, ts)
  | _ + 1, .nan b :: ts => some (.num (if b then 0xfff8000000000000#64 else 0x7ff8000000000000#64), true, ts)
  | _ + 1, .inf b :: ts => some (.num (if b then 0xfff0000000000000#64 else 0x7ff0000000000000#64), true, ts)
  | _ + 1, .date s :: ts => some (.date s, true, ts)
  | _ + 1, _ => none
/-- Reading elements. -/
def rdVals (o : TomlOps) : Nat → List TTok → Option (List Toml × Bool × List TTok)
  | 0, _ => none
  | _ + 1, [] => some ([], false, [])
  | _ + 1, .blockClose :: ts => some ([], true, ts)
  | n + 1, .comma :: ts => rdVals o n ts
  | n + 1, t :: ts => (rdVal o n (t :: ts)).bind fun r =>
      if r.2.1 then (rdVals o n r.2.2).map fun r' => (r.1 :: r'.1, r'.2) else some ([r.1], r.2)
end

theorem rdVals_elem {n : Nat} {t : TTok} {ts : List TTok} (h1 : t ≠ .blockClose) (h2 : t ≠ .comma) :
    rdVals o (n + 1) (t :: ts) = (rdVal o n (t :: ts)).bind fun r =>
      if r.2.1 then (rdVals o n r.2.2).map fun r' => (r.1 :: r'.1, r'.2) else some ([r.1], r.2) := by
  cases t <;> first | exact absurd rfl h1 | exact absurd rfl h2 | rfl

theorem TElems.rd {vs : List Toml} {ts : List TTok} (h : TElems o vs ts) : ∃ N k, ∀ n, N ≤ n → ∀ q,
    rdVals o (n + k) (ts ++ q) = (rdVals o n q).map fun r => (vs ++ r.1, r.2) := by
  refine TElems.rec (o := o)
    (motive_1 := fun v ts _ => ∃ N, ∀ n, N ≤ n → ∀ q, rdVal o n (ts ++ q) = Option.some (v, true, q))
    (motive_2 := fun vs ts _ => ∃ N k, ∀ n, N ≤ n → ∀ q,
      rdVals o (n + k) (ts ++ q) = (rdVals o n q).map fun r => (vs ++ r.1, r.2))
    ?_ ?_ ?_ ?_ ?_ ?_ ?_ ?_ ?_ ?_ ?_ ?_ h
  iterate 8 (intro s; exact ⟨1, fun n hn q => by obtain ⟨m, rfl⟩ : ∃ m, n = m + 1 := ⟨n - 1, by omega⟩; simp [rdVal]⟩)
  · intro vs ts _ ⟨N, k, hN⟩
    refine ⟨N + k + 2, fun n hn q => ?_⟩
    obtain ⟨m, rfl⟩ : ∃ m, n = m + 1 + k + 1 := ⟨n - k - 2, by omega⟩
    rw [List.cons_append, rdVal, List.append_assoc, hN (m + 1) (by omega)]
    simp [rdVals]
  · refine ⟨0, 0, fun n _ q => ?_⟩
    simp
  · intro vs ts _ ⟨N, k, hN⟩
    refine ⟨N, k + 1, fun n hn q => ?_⟩
    rw [← Nat.add_assoc, List.cons_append, rdVals, hN n hn]
  · intro v ts vs ts' hv _ ⟨N1, hN1⟩ ⟨N2, k, hN2⟩
    refine ⟨N1 + N2, k + 1, fun n hn q => ?_⟩
    obtain ⟨t, ts1, rfl, n1, n2, n3, _⟩ := hv.reads
    rw [← Nat.add_assoc, List.append_assoc, List.cons_append, rdVals_elem n2 n1, ← List.cons_append,
      hN1 (n + k) (by omega), Option.bind_some]
    simp only [if_true]
    rw [hN2 n (by omega)]
    cases rdVals o n q <;> simp

theorem TValue.rd {v : Toml} {ts : List TTok} (h : TValue o v ts) : ∃ N, ∀ n, N ≤ n → ∀ q,
    rdVal o n (ts ++ q) = some (v, true, q) := by
  cases h
  case array vs ts h =>
    obtain ⟨N, k, hN⟩ := h.rd
    refine ⟨N + k + 2, fun n hn q => ?_⟩
    obtain ⟨m, rfl⟩ : ∃ m, n = m + 1 + k + 1 := ⟨n - k - 2, by omega⟩
    rw [List.cons_append, rdVal, List.append_assoc, hN (m + 1) (by omega)]
    simp [rdVals]
  all_goals exact ⟨1, fun n hn q => by obtain ⟨m, rfl⟩ : ∃ m, n = m + 1 := ⟨n - 1, by omega⟩; simp [rdVal]⟩

theorem TOpen.rd {v : Toml} {ts : List TTok} (h : TOpen o v ts) : ∃ N, ∀ n, N ≤ n → rdVal o n ts = some (v, false, []) := by
  induction h with
  | one h =>
    obtain ⟨N, k, hN⟩ := h.rd
    refine ⟨N + k + 2, fun n hn => ?_⟩
    obtain ⟨m, rfl⟩ : ∃ m, n = m + 1 + k + 1 := ⟨n - k - 2, by omega⟩
    have := hN (m + 1) (by omega) []
    rw [List.append_nil] at this
    rw [rdVal, this]
    simp [rdVals]
  | @more vs ts v ts' h h' ih =>
    obtain ⟨N, k, hN⟩ := h.rd
    obtain ⟨N2, hN2⟩ := ih
    obtain ⟨ts2, rfl, _⟩ := h'.reads
    refine ⟨N + N2 + k + 2, fun n hn => ?_⟩
    obtain ⟨m, rfl⟩ : ∃ m, n = m + 1 + k + 1 := ⟨n - k - 2, by omega⟩
    rw [rdVal, hN (m + 1) (by omega), rdVals_elem (by simp) (by simp), hN2 m (by omega)]
    simp

theorem TValue.unique {v v' : Toml} {ts ts' r r' : List TTok} (h : TValue o v ts) (h' : TValue o v' ts')
    (e : ts ++ r = ts' ++ r') : v' = v ∧ r' = r := by
  obtain ⟨N, hN⟩ := h.rd
  obtain ⟨N', hN'⟩ := h'.rd
  have h1 := hN (N + N') (by omega) r
  have h2 := hN' (N + N') (by omega) r'
  rw [e, h2] at h1
  cases h1
  exact ⟨rfl, rfl⟩

theorem TOpen.not_value {v v' : Toml} {ts ts' r' : List TTok} (h : TOpen o v ts) (h' : TValue o v' ts') :
    ts ≠ ts' ++ r' := by
  intro e
  obtain ⟨N, hN⟩ := h.rd
  obtain ⟨N', hN'⟩ := h'.rd
  have h1 := hN (N + N') (by omega)
  have h2 := hN' (N + N') (by omega) r'
  rw [e, h2] at h1
  cases h1

theorem TOpen.unique {v v' : Toml} {ts : List TTok} (h : TOpen o v ts) (h' : TOpen o v' ts) : v' = v := by
  obtain ⟨N, hN⟩ := h.rd
  obtain ⟨N', hN'⟩ := h'.rd
  have h1 := hN (N + N') (by omega)
  have h2 := hN' (N + N') (by omega)
  rw [h2] at h1
  cases h1
  rfl

theorem key_text {t : TTok} {k : List Char} (h : TName o t k ∨ t = .str k) : t.text o = k ∧ t.isKey = true := by
  rcases h with h | rfl
  · exact ⟨h.text.1, h.text.2.2⟩
  · exact ⟨rfl, rfl⟩

/-- The ways a statement may begin. -/
theorem TStmt.shape {x : Stmt} {ts : List TTok} (h : TStmt o x ts) :
    (∃ s t, x = .sect s ∧ ts = [.blockOpen, t, .blockClose] ∧ t.text o = s ∧ t ≠ .blockOpen) ∨
    (∃ s t, x = .table s ∧ ts = [.blockOpen, .blockOpen, t, .blockClose, .blockClose] ∧ t.text o = s) ∨
    (∃ k v t tv, x = .assign k v ∧ ts = t :: .equals :: tv ∧ t.text o = k ∧ t.isKey = true ∧ TValue o v tv) := by
  cases h with
  | sect => exact .inl ⟨_, _, rfl, rfl, rfl, by simp⟩
  | quoted => exact .inl ⟨_, _, rfl, rfl, rfl, by simp⟩
  | table h => exact .inr (.inl ⟨_, _, rfl, rfl, h.text.1⟩)
  | assign h hv => exact .inr (.inr ⟨_, _, _, _, rfl, rfl, h.text.1, h.text.2.2, hv⟩)
  | quotedKey hv => exact .inr (.inr ⟨_, _, _, _, rfl, rfl, rfl, rfl, hv⟩)

theorem TStmt.unique {x x' : Stmt} {ts ts' r r' : List TTok} (h : TStmt o x ts) (h' : TStmt o x' ts')
    (e : ts ++ r = ts' ++ r') : x' = x ∧ r' = r := by
  have nk : ∀ t : TTok, t.isKey = true → t ≠ .blockOpen := fun t ht e => by rw [e] at ht; cases ht
  rcases h.shape with ⟨s, t, rfl, rfl, h1, h2⟩ | ⟨s, t, rfl, rfl, h1⟩ | ⟨k, v, t, tv, rfl, rfl, h1, h2, h3⟩ <;>
  rcases h'.shape with ⟨s', t', rfl, rfl, g1, g2⟩ | ⟨s', t', rfl, rfl, g1⟩ | ⟨k', v', t', tv', rfl, rfl, g1, g2, g3⟩ <;>
  simp only [List.cons_append, List.nil_append, List.cons.injEq, true_and] at e
  · obtain ⟨rfl, rfl⟩ := e
    exact ⟨by rw [← h1, ← g1], rfl⟩
  · exact absurd e.1 h2
  · exact absurd e.1.symm (nk _ g2)
  · exact absurd e.1.symm g2
  · obtain ⟨rfl, rfl⟩ := e
    exact ⟨by rw [← h1, ← g1], rfl⟩
  · exact absurd e.1.symm (nk _ g2)
  · exact absurd e.1 (nk _ h2)
  · exact absurd e.1 (nk _ h2)
  · obtain ⟨rfl, e⟩ := e
    obtain ⟨rfl, rfl⟩ := h3.unique g3 e
    exact ⟨by rw [← h1, ← g1], rfl⟩

theorem TStmt.not_open {x : Stmt} {ts r : List TTok} (h : TStmt o x ts) {t : TTok} {v : Toml} {to : List TTok}
    (ht : t.isKey = true) (hv : TOpen o v to) : ts ++ r ≠ t :: .equals :: to := by
  intro e
  rcases h.shape with ⟨s, t', rfl, rfl, _⟩ | ⟨s, t', rfl, rfl, _⟩ | ⟨k', v', t', tv', rfl, rfl, g1, g2, g3⟩ <;>
  simp only [List.cons_append, List.nil_append, List.cons.injEq, true_and] at e
  · rw [← e.1] at ht; cases ht
  · rw [← e.1] at ht; cases ht
  · exact hv.not_value g3 e.2.symm

theorem TStmt.ne_nil {x : Stmt} {ts : List TTok} (h : TStmt o x ts) : ts ≠ [] := by
  rcases h.shape with ⟨s, t, rfl, rfl, h1, h2⟩ | ⟨s, t, rfl, rfl, h1⟩ | ⟨k, v, t, tv, rfl, rfl, h1, h2, h3⟩ <;> simp

theorem TReading.cases' {doc : List Stmt} {ts : List TTok} (h : TReading o doc ts) :
    (doc = [] ∧ ts = []) ∨ (∃ x tx doc' ts', doc = x :: doc' ∧ ts = tx ++ ts' ∧ TStmt o x tx ∧ TReading o doc' ts') ∨
    (∃ t k v to, doc = [.assign k v] ∧ ts = t :: .equals :: to ∧ (TName o t k ∨ t = .str k) ∧ TOpen o v to) := by
  cases h with
  | all h =>
    cases h with
    | nil => exact .inl ⟨rfl, rfl⟩
    | cons hx h => exact .inr (.inl ⟨_, _, _, _, rfl, rfl, hx, .all h⟩)
  | cut h hk hv =>
    cases h with
    | nil => exact .inr (.inr ⟨_, _, _, _, rfl, rfl, hk, hv⟩)
    | cons hx h => exact .inr (.inl ⟨_, _, _, _, rfl, by rw [List.append_assoc], hx, .cut h hk hv⟩)

/-- The tokens of a document determine its statements. -/
theorem TReading.unique : ∀ {doc doc' : List Stmt} {ts : List TTok}, TReading o doc ts → TReading o doc' ts → doc' = doc := by
  intro doc
  induction doc with
  | nil =>
    intro doc' ts h h'
    rcases h.cases' with ⟨_, rfl⟩ | ⟨x, tx, d, t, e, _⟩ | ⟨t, k, v, to, e, _⟩
    · rcases h'.cases' with ⟨rfl, _⟩ | ⟨x, tx, d, t, _, e, hx, _⟩ | ⟨t, k, v, to, _, e, _⟩
      · rfl
      · exact absurd (List.append_eq_nil_iff.1 e.symm).1 hx.ne_nil
      · cases e
    · cases e
    · cases e
  | cons x doc ih =>
    intro doc' ts h h'
    rcases h.cases' with ⟨e, _⟩ | ⟨_, tx, _, ts', e, rfl, hx, hd⟩ | ⟨t, k, v, to, e, rfl, hk, hv⟩
    · cases e
    · cases e
      rcases h'.cases' with ⟨_, e⟩ | ⟨x', tx', d, t, rfl, e, hx', hd'⟩ | ⟨t, k, v, to, _, e, hk, hv⟩
      · exact absurd (List.append_eq_nil_iff.1 e).1 hx.ne_nil
      · obtain ⟨rfl, rfl⟩ := hx.unique hx' e
        rw [ih hd hd']
      · exact absurd e (hx.not_open (key_text hk).2 hv)
    · cases e
      rcases h'.cases' with ⟨_, e⟩ | ⟨x', tx', d, t, _, e, hx', _⟩ | ⟨t', k', v', to', rfl, e, hk', hv'⟩
      · cases e
      · exact absurd e.symm (hx'.not_open (key_text hk).2 hv)
      · simp only [List.cons.injEq, true_and] at e
        obtain ⟨rfl, rfl⟩ := e
        rw [hv.unique hv', ← (key_text hk).1, ← (key_text hk').1]

/-! ## Tokens -/

theorem Feeds.unique {ts ts' : List TTok} {c c1 c1' : Cur} (h : Feeds o ts c c1) (h' : Feeds o ts' c c1')
    (he : TEnded c1) (he' : TEnded c1') (n : .eof ∉ ts) (n' : .eof ∉ ts') : ts' = ts := by
  induction h generalizing ts' with
  | nil =>
    cases h' with
    | nil => rfl
    | cons e _ =>
      obtain ⟨c2, e2, _⟩ := he.next (o := o)
      rw [e] at e2
      cases e2
      simp at n'
  | cons e _ ih =>
    cases h' with
    | nil =>
      obtain ⟨c2, e2, _⟩ := he'.next (o := o)
      rw [e] at e2
      cases e2
      simp at n
    | cons e' h' =>
      rw [e] at e'
      cases e'
      simp only [List.mem_cons, not_or] at n n'
      rw [ih h' he n.2 n'.2]

theorem TLexesAll.feeds {ts : List TTok} {txt : List Char} (h : TLexesAll o ts txt) :
    ∃ c', Feeds o ts (tInit txt) c' ∧ TEnded c' := by
  obtain ⟨w, r, h1, h2, h3⟩ := h
  obtain ⟨c', hf, hc⟩ := h3.feeds (tInit_txt txt)
  exact ⟨c', hf, w, r, hc, h1, h2⟩

theorem Feeds.lexesAll {ts : List TTok} {txt : List Char} {c' : Cur} (h : Feeds o ts (tInit txt) c') (he : TEnded c')
    (hn : .eof ∉ ts) : TLexesAll o ts txt := by
  obtain ⟨w, r, h1, h2, h3⟩ := he
  have := h.lexes hn
  rw [tInit_txt, h1] at this
  exact ⟨w, r, h2, h3, this⟩

theorem TSays.unique {doc doc' : List Stmt} {txt : List Char} (h : TSays o doc txt) (h' : TSays o doc' txt) : doc' = doc := by
  obtain ⟨ts, h1, h2⟩ := h
  obtain ⟨ts', h1', h2'⟩ := h'
  obtain ⟨c, f, e⟩ := h2.feeds
  obtain ⟨c', f', e'⟩ := h2'.feeds
  have := f.unique f' e e' h1.no_eof h1'.no_eof
  subst this
  exact h1.unique h1'

end NS
