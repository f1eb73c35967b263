import Verif.Lemmas.TomlScan3
/-! What the TOML parser accepts has the grammar of `TReading`. -/
namespace NS
variable {o : TomlOps}

/-- Only layout is left. -/
def TEnded (c : Cur) : Prop := ∃ w r, c.txt = w ++ r ∧ TLayoutEnd w ∧ TEnds r

theorem TEnded.next {c : Cur} (h : TEnded c) : ∃ c', tNext o c = .ok .eof c' ∧ TEnds c'.txt := by
  obtain ⟨w, r, h1, h2, h3⟩ := h
  obtain ⟨c', e, h⟩ := tNext_ends (o := o) h2 h3 h1
  exact ⟨c', e, by rw [h]; exact h3⟩

theorem TEnds.ended {c : Cur} (h : TEnds c.txt) : TEnded c := ⟨[], c.txt, rfl, .inl .nil, h⟩

theorem tNext_eof {c c' : Cur} (h : tNext o c = .ok .eof c') : TEnded c ∧ TEnds c'.txt := by
  rcases tNext_sound h with ⟨w, s, _, _, h3⟩ | ⟨_, w, h1, h2, h3⟩
  · exact absurd rfl h3.ne_eof
  · exact ⟨⟨w, _, h1, h2, h3⟩, h3⟩

/-- The elements read so far, and possibly an array that is not closed. -/
inductive TSome (o : TomlOps) : List Toml → List TTok → Prop where
  | elems {vs ts} : TElems o vs ts → TSome o vs ts
  | «open» {vs ts v ts'} : TElems o vs ts → TOpen o v ts' → TSome o (vs ++ [v]) (ts ++ ts')

theorem TSome.comma {vs : List Toml} {ts : List TTok} (h : TSome o vs ts) : TSome o vs (.comma :: ts) := by
  cases h with
  | elems h => exact .elems (.comma h)
  | «open» h h' => exact .open (.comma h) h'

theorem TSome.elem {v : Toml} {vs : List Toml} {tv ts : List TTok} (hv : TValue o v tv) (h : TSome o vs ts) :
    TSome o (v :: vs) (tv ++ ts) := by
  cases h with
  | elems h => exact .elems (.elem hv h)
  | «open» h h' => rw [← List.append_assoc, ← List.cons_append]; exact .open (.elem hv h) h'

theorem TSome.array {vs : List Toml} {ts : List TTok} (h : TSome o vs ts) : TOpen o (.simpleArray vs) (.blockOpen :: ts) := by
  cases h with
  | elems h => exact .one h
  | «open» h h' => exact .more h h'

/-- Reading a value: all of it, or up to the end of the text. -/
theorem tVal_sound : ∀ n,
    (∀ (tok : TTok) (c c' : Cur) (v : Toml), tVal o n tok c = .ok v c' →
      (∃ ts, Feeds o ts c c' ∧ TValue o v (tok :: ts)) ∨
      (TEnds c'.txt ∧ ∃ ts c1, Feeds o ts c c1 ∧ TEnded c1 ∧ TOpen o v (tok :: ts))) ∧
    (∀ (acc : List Toml) (c c' : Cur) (vs : List Toml), tVals o n acc c = .ok vs c' →
      ∃ vs', vs = acc ++ vs' ∧ ((∃ ts, Feeds o (ts ++ [.blockClose]) c c' ∧ TElems o vs' ts) ∨
        (TEnds c'.txt ∧ ∃ ts c1, Feeds o ts c c1 ∧ TEnded c1 ∧ TSome o vs' ts))) := by
  intro n
  induction n with
  | zero => exact ⟨fun _ _ _ _ h => (by simp only [tVal] at h; cases h), fun _ _ _ _ h => (by simp only [tVals] at h; cases h)⟩
  | succ n ih =>
    refine ⟨fun tok c c' v h => ?_, fun acc c c' vs h => ?_⟩
    · cases tok <;> simp only [tVal] at h
      case blockOpen =>
        obtain ⟨vs, c1, h1, h⟩ := tbind_inv h
        cases h
        obtain ⟨vs', e, h2⟩ := ih.2 _ _ _ _ h1
        rw [List.nil_append] at e
        subst e
        rcases h2 with ⟨ts, h2, h3⟩ | ⟨h0, ts, c1, h2, h3, h4⟩
        · exact .inl ⟨_, h2, .array h3⟩
        · exact .inr ⟨h0, ts, c1, h2, h3, h4.array⟩
      case str => cases h; exact .inl ⟨[], .nil, .str⟩
      case u64 => cases h; exact .inl ⟨[], .nil, .nat⟩
      case i64 => cases h; exact .inl ⟨[], .nil, .int⟩
      case f64 => cases h; exact .inl ⟨[], .nil, .float⟩
      case bool => cases h; exact .inl ⟨[], .nil, .bool⟩
      case nan => cases h; exact .inl ⟨[], .nil, .nan⟩
      case inf => cases h; exact .inl ⟨[], .nil, .inf⟩
      case date => cases h; exact .inl ⟨[], .nil, .date⟩
      all_goals cases h
    · simp only [tVals] at h
      obtain ⟨tok, c1, h1, h⟩ := tbind_inv h
      split at h
      · rename_i ht
        cases h
        refine ⟨[], by simp, ?_⟩
        rcases ht with rfl | rfl
        · exact .inl ⟨[], .cons h1 .nil, .nil⟩
        · obtain ⟨g1, g2⟩ := tNext_eof h1
          exact .inr ⟨g2, [], c, .nil, g1, .elems .nil⟩
      · split at h
        · rename_i hne hcom
          obtain ⟨v, c2, h2, h⟩ := tbind_inv h
          obtain ⟨vs', rfl, h3⟩ := ih.2 _ _ _ _ h
          refine ⟨v :: vs', by simp, ?_⟩
          rcases ih.1 _ _ _ _ h2 with ⟨tv, g1, g2⟩ | ⟨g0, tv, c3, g1, g2, g3⟩
          · rcases h3 with ⟨ts, h3, h4⟩ | ⟨h0, ts, c1', h3, h4, h5⟩
            · refine .inl ⟨tok :: tv ++ ts, ?_, .elem g2 h4⟩
              rw [List.append_assoc]
              exact .cons h1 (g1.append h3)
            · refine .inr ⟨h0, tok :: tv ++ ts, c1', ?_, h4, .elem g2 h5⟩
              exact .cons h1 (g1.append h3)
          · -- the end of the text was reached: it is found again
            have last : vs' = [] ∧ TEnds c'.txt := by
              cases n with
              | zero => simp only [tVals] at h; cases h
              | succ n =>
                simp only [tVals] at h
                obtain ⟨c4, e4, t4⟩ := g0.ended.next (o := o)
                rw [M.bind_ok e4, if_pos (.inr rfl)] at h
                injection h with e1 e2
                subst e2
                refine ⟨?_, t4⟩
                have := congrArg List.length e1
                simp only [List.length_append] at this
                exact List.eq_nil_of_length_eq_zero (by omega)
            obtain ⟨rfl, he⟩ := last
            refine .inr ⟨he, tok :: tv, c3, .cons h1 g1, g2, ?_⟩
            exact .open (vs := []) (ts := []) .nil g3
        · rename_i hne hcom
          have hcom := Decidable.not_not.1 hcom
          subst hcom
          obtain ⟨vs', e, h3⟩ := ih.2 _ _ _ _ h
          refine ⟨vs', e, ?_⟩
          rcases h3 with ⟨ts, h3, h4⟩ | ⟨h0, ts, c1', h3, h4, h5⟩
          · exact .inl ⟨.comma :: ts, .cons h1 h3, .comma h4⟩
          · exact .inr ⟨h0, .comma :: ts, c1', .cons h1 h3, h4, h5.comma⟩

/-! ## Statements -/

theorem TTok.table_name {t : TTok} (h : t.isTable = true) : TName o t (t.text o) := by
  cases t <;> first | (simp [TTok.isTable] at h; done) | skip
  case ident => exact .ident
  case u64 => rw [TTok.text, showNat_repr]; exact .nat
  case i64 => rw [TTok.text, showInt_repr]; exact .int
  case f64 => exact .float
  case bool b => cases b <;> first | exact .tru | exact .fals
  case nan b => cases b <;> first | exact .nan | exact .nnan
  case inf b => cases b <;> first | exact .inf | exact .ninf
  case date => exact .date

theorem TTok.key_name {t : TTok} (h : t.isKey = true) : TName o t (t.text o) ∨ t = .str (t.text o) := by
  cases t <;> first | (simp [TTok.isKey] at h; done) | skip
  case str => exact .inr rfl
  all_goals exact .inl (TTok.table_name rfl)

theorem stmt_assign {t : TTok} {k : List Char} {v : Toml} {ts : List TTok} (hk : TName o t k ∨ t = .str k)
    (hv : TValue o v ts) : TStmt o (.assign k v) (t :: .equals :: ts) := by
  rcases hk with h | rfl
  · exact .assign h hv
  · exact .quotedKey hv

theorem tLine_sound {n : Nat} {u u' : TOut} {c c' : Cur} (h : tLine o n u c = .ok (some u') c') :
    ∃ x, u.step x = some u' ∧ ((∃ ts, TStmt o x ts ∧ Feeds o ts c c') ∨
      (TEnds c'.txt ∧ ∃ t k v ts c1, x = .assign k v ∧ (TName o t k ∨ t = .str k) ∧ TOpen o v ts ∧
        Feeds o (t :: .equals :: ts) c c1 ∧ TEnded c1)) := by
  simp only [tLine] at h
  obtain ⟨tok, c1, h1, h⟩ := tbind_inv h
  split at h
  · cases h
  split at h
  · rename_i _ ht
    subst ht
    obtain ⟨u1, c2, h2, h⟩ := tbind_inv h
    cases h
    simp only [tHeader] at h2
    obtain ⟨t, c3, h3, h2⟩ := tbind_inv h2
    cases t <;> simp only at h2
    case str key =>
      obtain ⟨_, c4, h4, h2⟩ := tbind_inv h2
      cases h2
      exact ⟨.sect key, rfl, .inl ⟨_, .quoted, .cons h1 (.cons h3 (.cons (tExpect_inv h4) .nil))⟩⟩
    case ident key =>
      obtain ⟨_, c4, h4, h2⟩ := tbind_inv h2
      cases h2
      exact ⟨.sect key, rfl, .inl ⟨_, .sect, .cons h1 (.cons h3 (.cons (tExpect_inv h4) .nil))⟩⟩
    case blockOpen =>
      obtain ⟨t, c4, h4, h2⟩ := tbind_inv h2
      split at h2
      · rename_i ht
        obtain ⟨_, c5, h5, h2⟩ := tbind_inv h2
        obtain ⟨_, c6, h6, h2⟩ := tbind_inv h2
        obtain ⟨u2, c7, h7, h2⟩ := tbind_inv h2
        cases h2
        obtain ⟨h8, rfl⟩ := orPanic_ok h7
        refine ⟨.table (t.text o), ?_, .inl ⟨_, .table (TTok.table_name ht), .cons h1 (.cons h3 (.cons h4
          (.cons (tExpect_inv h5) (.cons (tExpect_inv h6) .nil))))⟩⟩
        simp only [TOut.step, h8]
        rfl
      · cases h2
    all_goals cases h2
  split at h
  · rename_i ht
    obtain ⟨u1, c2, h2, h⟩ := tbind_inv h
    cases h
    simp only [tKeyValue] at h2
    obtain ⟨_, c3, h3, h2⟩ := tbind_inv h2
    obtain ⟨t, c4, h4, h2⟩ := tbind_inv h2
    obtain ⟨v, c5, h5, h2⟩ := tbind_inv h2
    obtain ⟨h8, rfl⟩ := orPanic_ok h2
    refine ⟨.assign (tok.text o) v, h8, ?_⟩
    rcases (tVal_sound n).1 _ _ _ _ h5 with ⟨ts, g1, g2⟩ | ⟨g0, ts, c6, g1, g2, g3⟩
    · exact .inl ⟨_, stmt_assign (TTok.key_name ht) g2, .cons h1 (.cons (tExpect_inv h3) (.cons h4 g1))⟩
    · exact .inr ⟨g0, tok, _, v, _, c6, rfl, TTok.key_name ht, g3, .cons h1 (.cons (tExpect_inv h3) (.cons h4 g1)), g2⟩
  · cases h

theorem tLine_none {n : Nat} {u : TOut} {c c' : Cur} (h : tLine o n u c = .ok none c') : TEnded c := by
  simp only [tLine] at h
  obtain ⟨tok, c1, h1, h⟩ := tbind_inv h
  split at h
  · rename_i ht
    subst ht
    exact (tNext_eof h1).1
  split at h
  · obtain ⟨u1, c2, h2, h⟩ := tbind_inv h
    cases h
  split at h
  · obtain ⟨u1, c2, h2, h⟩ := tbind_inv h
    cases h
  · cases h

theorem TReading.cons {x : Stmt} {tx : List TTok} {doc : List Stmt} {ts : List TTok} (hx : TStmt o x tx)
    (h : TReading o doc ts) : TReading o (x :: doc) (tx ++ ts) := by
  cases h with
  | all h => exact .all (.cons hx h)
  | cut h hk hv =>
    have := TReading.cut (TStmts.cons hx h) hk hv
    simpa using this

theorem tLoop_sound {n : Nat} : ∀ {u : TOut} {c c' : Cur} {m : TMap}, tLoop o n u c = .ok m c' →
    ∃ doc ts c1 u', TReading o doc ts ∧ Feeds o ts c c1 ∧ TEnded c1 ∧ u.run doc = some u' ∧ u'.out = m := by
  induction n with
  | zero => intro u c c' m h; simp only [tLoop] at h; cases h
  | succ n ih =>
    intro u c c' m h
    simp only [tLoop] at h
    obtain ⟨r, c1, h1, h⟩ := tbind_inv h
    cases r with
    | none =>
      cases h
      exact ⟨[], [], c, u, .all .nil, .nil, tLine_none h1, rfl, rfl⟩
    | some u1 =>
      simp only at h
      obtain ⟨x, hs, hx⟩ := tLine_sound h1
      rcases hx with ⟨tx, g1, g2⟩ | ⟨g0, t, k, v, tx, c2, rfl, g1, g2, g3, g4⟩
      · obtain ⟨doc, ts, c2, u', k1, k2, k3, k4, k5⟩ := ih h
        exact ⟨x :: doc, tx ++ ts, c2, u', k1.cons g1, g2.append k2, k3, by simp only [TOut.run, hs]; exact k4, k5⟩
      · -- the end
        have hm : u1.out = m := by
          cases n with
          | zero => simp only [tLoop] at h; cases h
          | succ n =>
            obtain ⟨c3, e3, _⟩ := g0.ended.next (o := o)
            rw [tLoop_end e3] at h
            injection h
        refine ⟨[.assign k v], t :: .equals :: tx, c2, u1, ?_, g3, g4, by simp only [TOut.run, hs], hm⟩
        exact .cut (doc := []) (ts := []) .nil g1 g2

theorem tLine_validate {n : Nat} {u u' : TOut} (hu : u.Valid) {c c1 : Cur} (h : tLine o n u c = .ok (some u') c1) : u'.Valid :=
  tLine_valid hu h

/-- A panic: the text begins with statements whose effect is one. -/
theorem tLoop_panics {n : Nat} : ∀ {u : TOut} {c : Cur}, u.Valid → tLoop o n u c = .panic →
    ∃ doc ts c1, TStmts o doc ts ∧ Feeds o ts c c1 ∧ u.run doc = none := by
  induction n with
  | zero => intro u c _ h; simp only [tLoop] at h; cases h
  | succ n ih =>
    intro u c hu h
    simp only [tLoop] at h
    rcases bind_panic_inv h with h | ⟨r, c1, h1, h⟩
    · obtain ⟨t, c1, c2, c3, c4, c5, e1, e2, e3, e4, e5, ht, hs⟩ := tLine_panic hu h
      refine ⟨[.table (t.text o)], _, c5, .cons (.table (TTok.table_name ht)) .nil, ?_, ?_⟩
      · exact .cons e1 (.cons e2 (.cons e3 (.cons e4 (.cons e5 .nil))))
      · simp [TOut.run, TOut.step, hs]
    · cases r with
      | none => cases h
      | some u1 =>
        simp only at h
        obtain ⟨doc, ts, c2, k1, k2, k3⟩ := ih (tLine_valid hu h1) h
        obtain ⟨x, hs, hx⟩ := tLine_sound h1
        rcases hx with ⟨tx, g1, g2⟩ | ⟨g0, _⟩
        · exact ⟨x :: doc, tx ++ ts, c2, .cons g1 k1, g2.append k2, by simp only [TOut.run, hs]; exact k3⟩
        · exfalso
          cases n with
          | zero => simp only [tLoop] at h; cases h
          | succ n =>
            obtain ⟨c3, e3, _⟩ := g0.ended.next (o := o)
            rw [tLoop_end e3] at h
            cases h

/-! ## Reading documents whose last brackets are missing -/

theorem TOpen.reads {v : Toml} {ts : List TTok} (h : TOpen o v ts) :
    ∃ ts', ts = .blockOpen :: ts' ∧ ∀ c c1, Feeds o ts' c c1 → TEnded c1 →
      ∃ N, ∀ n, N ≤ n → ∃ c', tVal o n .blockOpen c = .ok v c' ∧ TEnds c'.txt := by
  induction h with
  | @one vs ts hv =>
    refine ⟨ts, rfl, fun c c1 hf he => ?_⟩
    obtain ⟨N, k, hN⟩ := hv.some [] c c1 hf
    obtain ⟨c2, e2, t2⟩ := he.next (o := o)
    refine ⟨N + k + 2, fun n hn => ⟨c2, ?_, t2⟩⟩
    obtain ⟨m, rfl⟩ : ∃ m, n = m + 1 + k + 1 := ⟨n - k - 2, by omega⟩
    have : tVals o (m + 1 + k) [] c = .ok vs c2 := by
      rw [hN (m + 1) (by omega), tVals, M.bind_ok e2, if_pos (.inr rfl), List.nil_append]
      rfl
    rw [tVal, M.bind_ok this]
    rfl
  | @more vs ts v ts' hv _ ih =>
    obtain ⟨ts2, rfl, ih⟩ := ih
    refine ⟨_, rfl, fun c c1 hf he => ?_⟩
    obtain ⟨c2, f1, f2⟩ := hf.split
    cases f2 with
    | cons e3 f2 =>
      obtain ⟨N, k, hN⟩ := hv.some [] c c2 f1
      obtain ⟨N2, hN2⟩ := ih _ _ f2 he
      -- the fuel of the last rounds
      have last : ∀ m, N + N2 + 2 ≤ m → ∃ c', tVals o m ([] ++ vs) c2 = .ok (vs ++ [v]) c' ∧ TEnds c'.txt := by
        intro m hm
        obtain ⟨m, rfl⟩ : ∃ q, m = q + 1 + 1 := ⟨m - 2, by omega⟩
        obtain ⟨c4, e4, t4⟩ := hN2 (m + 1) (by omega)
        obtain ⟨c5, e5, t5⟩ := t4.ended.next (o := o)
        refine ⟨c5, ?_, t5⟩
        rw [tVals, M.bind_ok e3, if_neg (by simp), if_pos (by simp), M.bind_ok e4, tVals, M.bind_ok e5, if_pos (.inr rfl),
          List.nil_append]
        rfl
      refine ⟨N + N2 + k + 3, fun n hn => ?_⟩
      obtain ⟨m, rfl⟩ : ∃ m, n = m + k + 1 := ⟨n - k - 1, by omega⟩
      obtain ⟨c', e', t'⟩ := last m (by omega)
      refine ⟨c', ?_, t'⟩
      rw [tVal, M.bind_ok ((hN m (by omega)).trans e')]
      rfl

theorem TOut.run_append (u : TOut) (a b : List Stmt) : u.run (a ++ b) = (u.run a).bind (·.run b) := by
  induction a generalizing u with
  | nil => rfl
  | cons x a ih =>
    simp only [List.cons_append, TOut.run]
    cases u.step x with
    | none => rfl
    | some u' => exact ih u'

/-- A document is read as its statements say. -/
theorem tLoop_reading {doc : List Stmt} {ts : List TTok} (h : TReading o doc ts) {u u' : TOut} {c c1 : Cur}
    (hf : Feeds o ts c c1) (he : TEnded c1) (hr : u.run doc = some u') :
    ∃ N, ∀ n, N ≤ n → ∃ c', tLoop o n u c = .ok u'.out c' := by
  cases h with
  | all h =>
    obtain ⟨N, hN⟩ := tLoop_doc h u hf
    obtain ⟨c2, e2, _⟩ := he.next (o := o)
    refine ⟨N + doc.length + 1, fun n hn => ⟨c2, ?_⟩⟩
    have := hN (n - doc.length) (by omega)
    rw [hr, show n - doc.length + doc.length = n by omega] at this
    refine this.trans ?_
    have e : n - doc.length = (n - doc.length - 1) + 1 := by omega
    simp only
    rw [e]
    exact tLoop_end e2 _ u'
  | @cut doc ts t k v ts' h hk hv =>
    obtain ⟨c2, f1, f2⟩ := hf.split
    obtain ⟨N, hN⟩ := tLoop_doc h u f1
    rw [TOut.run_append] at hr
    cases hu : u.run doc with
    | none => rw [hu] at hr; cases hr
    | some u1 =>
      rw [hu, Option.bind_some] at hr
      obtain ⟨ts2, rfl, hrd⟩ := hv.reads
      cases f2 with
      | cons e1 f2 =>
      cases f2 with
      | cons e2 f2 =>
      cases f2 with
      | cons e3 f2 =>
      obtain ⟨N2, hN2⟩ := hrd _ _ f2 he
      have hs : u1.step (.assign k v) = some u' := by
        simp only [TOut.run] at hr
        cases hx : u1.step (.assign k v) with
        | none => rw [hx] at hr; cases hr
        | some u2 => rw [hx] at hr; exact hr
      have ht : t.text o = k ∧ t.isKey = true := by
        rcases hk with h | rfl
        · exact ⟨h.text.1, h.text.2.2⟩
        · exact ⟨rfl, rfl⟩
      refine ⟨N + N2 + doc.length + 2, fun n hn => ?_⟩
      have h1 := hN (n - doc.length) (by omega)
      rw [hu, show n - doc.length + doc.length = n by omega] at h1
      obtain ⟨m, hm⟩ : ∃ m, n - doc.length = m + 1 + 1 := ⟨n - doc.length - 2, by omega⟩
      simp only [hm] at h1
      obtain ⟨c4, e4, t4⟩ := hN2 (m + 1) (by omega)
      obtain ⟨c5, e5, t5⟩ := t4.ended.next (o := o)
      refine ⟨c5, h1.trans ?_⟩
      have line : tLine o (m + 1) u1 c2 = .ok (some u') c4 := by
        have n1 : t ≠ .eof := by intro e; rw [e] at ht; simp [TTok.isKey] at ht
        have n2 : t ≠ .blockOpen := by intro e; rw [e] at ht; simp [TTok.isKey] at ht
        simp only [tLine]
        rw [M.bind_ok e1, if_neg n1, if_neg n2, if_pos ht.2]
        refine (M.bind_ok (s' := c4) (a := u') ?_).trans rfl
        simp only [tKeyValue, ht.1]
        rw [M.bind_ok (tExpect_ok e2), M.bind_ok e3, M.bind_ok e4]
        simp only [TOut.step] at hs
        rw [hs]
        rfl
      rw [tLoop, M.bind_ok line]
      exact tLoop_end e5 m u'

theorem TReading.plain {doc : List Stmt} {ts : List TTok} (h : TReading o doc ts) : Plain doc := by
  cases h with
  | all h => exact h.plain
  | cut h _ hv =>
    intro k' v' hk
    rcases List.mem_append.1 hk with hk | hk
    · exact h.plain k' v' hk
    · simp only [List.mem_cons, Stmt.assign.injEq, List.not_mem_nil, or_false] at hk
      rw [hk.2]
      cases hv <;> rfl

/-! ## No end among the tokens -/

theorem TElems.no_eof {vs : List Toml} {ts : List TTok} (h : TElems o vs ts) : .eof ∉ ts := by
  refine TElems.rec (o := o) (motive_1 := fun v ts _ => .eof ∉ ts) (motive_2 := fun vs ts _ => .eof ∉ ts)
    ?_ ?_ ?_ ?_ ?_ ?_ ?_ ?_ ?_ ?_ ?_ ?_ h
  all_goals simp_all

theorem TValue.no_eof {v : Toml} {ts : List TTok} (h : TValue o v ts) : .eof ∉ ts := by
  have := (TElems.elem h .nil).no_eof
  simpa using this

theorem TOpen.no_eof {v : Toml} {ts : List TTok} (h : TOpen o v ts) : .eof ∉ ts := by
  induction h with
  | one h => simpa using h.no_eof
  | more h _ ih => simpa using ⟨h.no_eof, ih⟩

theorem TName.no_eof {t : TTok} {k : List Char} (h : TName o t k ∨ t = .str k) : .eof ≠ t := by
  rcases h with h | rfl
  · cases h <;> simp
  · simp

theorem TStmts.no_eof {doc : List Stmt} {ts : List TTok} (h : TStmts o doc ts) : .eof ∉ ts := by
  induction h with
  | nil => simp
  | cons hx _ ih =>
    simp only [List.mem_append, not_or]
    refine ⟨?_, ih⟩
    cases hx with
    | sect => simp
    | quoted => simp
    | table h => simpa using TName.no_eof (.inl h)
    | assign h hv => simpa using ⟨TName.no_eof (.inl h), hv.no_eof⟩
    | quotedKey hv => simpa using hv.no_eof

theorem TReading.no_eof {doc : List Stmt} {ts : List TTok} (h : TReading o doc ts) : .eof ∉ ts := by
  cases h with
  | all h => exact h.no_eof
  | cut h hk hv => simpa using ⟨h.no_eof, TName.no_eof hk, hv.no_eof⟩

end NS
