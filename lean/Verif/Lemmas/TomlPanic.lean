import Verif.Lemmas.TomlLocal
/-! When the TOML parser panics. -/
namespace NS
variable {o : TomlOps}

/-- Never panics. -/
def TSafe {α : Type} (x : TM α) : Prop := ∀ c, x c ≠ .panic

theorem TSafe.pure {α : Type} (a : α) : TSafe (Pure.pure a : TM α) := fun _ h => by cases h
theorem TSafe.errToken {α : Type} (t : TTok) : TSafe (tErrToken t : TM α) := fun _ h => by cases h
theorem TSafe.oof {α : Type} : TSafe (M.oof : TM α) := fun _ h => by cases h
theorem TSafe.ite {α : Type} {p : Prop} [Decidable p] {x y : TM α} (hx : TSafe x) (hy : TSafe y) :
    TSafe (if p then x else y) := by
  split
  · exact hx
  · exact hy

/-- A panic comes from the first computation or from the second. -/
theorem bind_panic_inv {α β : Type} {x : TM α} {f : α → TM β} {c : Cur} (h : (x >>= f) c = .panic) :
    x c = .panic ∨ ∃ a c1, x c = .ok a c1 ∧ f a c1 = .panic := by
  have h : M.bind x f c = .panic := h
  unfold M.bind at h
  cases hx : x c with
  | ok a c1 => rw [hx] at h; exact .inr ⟨a, c1, rfl, h⟩
  | err _ _ => rw [hx] at h; cases h
  | panic => exact .inl rfl
  | oof => rw [hx] at h; cases h

theorem tbind_inv {α β : Type} {x : TM α} {f : α → TM β} {c c2 : Cur} {b : β} (h : (x >>= f) c = .ok b c2) :
    ∃ a c1, x c = .ok a c1 ∧ f a c1 = .ok b c2 := by
  have h : M.bind x f c = .ok b c2 := h
  unfold M.bind at h
  cases hx : x c with
  | ok a c1 => rw [hx] at h; exact ⟨a, c1, rfl, h⟩
  | err _ _ => rw [hx] at h; cases h
  | panic => rw [hx] at h; cases h
  | oof => rw [hx] at h; cases h

theorem TSafe.bind {α β : Type} {x : TM α} {f : α → TM β} (hx : TSafe x) (hf : ∀ a, TSafe (f a)) : TSafe (x >>= f) := by
  intro c h
  rcases bind_panic_inv h with h | ⟨a, c1, _, h⟩
  · exact hx _ h
  · exact hf _ _ h

theorem tNext_safe : TSafe (tNext o) := fun c h => by
  have := (tNext_lands (o := o) c).1
  rw [h] at this
  exact this

theorem tVal_safe : ∀ n, (∀ t, TSafe (tVal o n t)) ∧ ∀ vs, TSafe (tVals o n vs) := by
  intro n
  induction n with
  | zero => exact ⟨fun t => by simpa [tVal] using TSafe.oof, fun vs => by simpa [tVals] using TSafe.oof⟩
  | succ n ih =>
    refine ⟨fun t => ?_, fun vs => ?_⟩
    · cases t <;> simp only [tVal] <;>
        first | exact TSafe.pure _ | exact TSafe.errToken _ | exact TSafe.bind (ih.2 []) fun _ => TSafe.pure _
    · simp only [tVals]
      exact TSafe.bind tNext_safe fun t => TSafe.ite (TSafe.pure _)
        (TSafe.ite (TSafe.bind (ih.1 t) fun v => ih.2 _) (ih.2 _))

theorem tExpect_safe (t : TTok) : TSafe (tExpect o t) :=
  TSafe.bind tNext_safe fun _ => TSafe.ite (TSafe.errToken _) (TSafe.pure _)

/-- The table being filled exists. -/
def TOut.Valid (u : TOut) : Prop := ∀ t n, u.active = some (t, n) → ∃ ts, tGet t u.out = some (.array ts) ∧ n < ts.length

theorem TOut.Valid.put {u : TOut} (h : u.Valid) (k : List Char) (v : Toml) :
    ∃ u', u.put k v = some u' ∧ u'.Valid := by
  unfold TOut.put
  cases ha : u.active with
  | none => exact ⟨_, rfl, fun t n e => by simp only [ha] at e; cases e⟩
  | some p =>
    obtain ⟨t, n⟩ := p
    obtain ⟨ts, h1, h2⟩ := h t n ha
    simp only [h1, List.getElem?_eq_getElem h2]
    refine ⟨_, rfl, ?_⟩
    intro t' n' e
    simp only [ha, Option.some.injEq, Prod.mk.injEq] at e
    obtain ⟨rfl, rfl⟩ := e
    exact ⟨_, by rw [tGet_insert, if_pos rfl], by simpa using h2⟩

theorem TOut.startArray_valid {u u' : TOut} {k : List Char} (h : u.startArray k = some u') : u'.Valid := by
  unfold TOut.startArray at h
  simp only at h
  split at h
  · cases h
    intro t n e
    simp only [Option.some.injEq, Prod.mk.injEq] at e
    obtain ⟨rfl, rfl⟩ := e
    exact ⟨_, by rw [tGet_insert, if_pos rfl], by simp⟩
  · cases h

/-- A header panics only if the name is bound to something else. -/
theorem TOut.startArray_none {u : TOut} {k : List Char} (h : u.startArray k = none) :
    ∃ v, tGet k u.out = some v ∧ ∀ ts, v ≠ .array ts := by
  unfold TOut.startArray at h
  simp only at h
  cases hg : tGet k u.out with
  | none =>
    rw [hg] at h
    simp only [Option.isNone_none, if_true, tGet_insert] at h
    cases h
  | some v =>
    rw [hg] at h
    simp only [Option.isNone_some, Bool.false_eq_true, if_false, hg] at h
    refine ⟨v, rfl, ?_⟩
    rintro ts rfl
    simp at h

theorem orPanic_ok {α : Type} {x : Option α} {a : α} {c c1 : Cur} (h : orPanic x c = .ok a c1) : x = some a ∧ c1 = c := by
  cases x with
  | none => cases h
  | some b => cases h; exact ⟨rfl, rfl⟩

theorem tHeader_valid {u u' : TOut} (hu : u.Valid) {c c1 : Cur} (h : tHeader o u c = .ok u' c1) : u'.Valid := by
  simp only [tHeader] at h
  obtain ⟨t, c2, _, h⟩ := tbind_inv h
  have scope : ∀ s, (⟨u.out, u.active, s⟩ : TOut).Valid := fun s => hu
  cases t <;> simp only at h
  case str =>
    obtain ⟨_, c3, _, h⟩ := tbind_inv h
    cases h; exact scope _
  case ident =>
    obtain ⟨_, c3, _, h⟩ := tbind_inv h
    cases h; exact scope _
  case blockOpen =>
    obtain ⟨t, c3, _, h⟩ := tbind_inv h
    split at h
    · obtain ⟨_, c4, _, h⟩ := tbind_inv h
      obtain ⟨_, c5, _, h⟩ := tbind_inv h
      obtain ⟨u2, c6, h1, h'⟩ := tbind_inv h
      obtain ⟨hp, hc⟩ := orPanic_ok h1; clear h1; subst hc
      cases h'
      have hv := TOut.startArray_valid hp
      exact fun t n e => hv t n e
    · cases h
  all_goals cases h

theorem tLine_valid {n : Nat} {u u' : TOut} (hu : u.Valid) {c c1 : Cur} (h : tLine o n u c = .ok (some u') c1) : u'.Valid := by
  simp only [tLine] at h
  obtain ⟨t, c2, _, h⟩ := tbind_inv h
  split at h
  · cases h
  split at h
  · obtain ⟨u2, c3, h1, h⟩ := tbind_inv h
    cases h
    exact tHeader_valid hu h1
  split at h
  · obtain ⟨u2, c3, h1, h⟩ := tbind_inv h
    cases h
    simp only [tKeyValue] at h1
    obtain ⟨_, c4, _, h1⟩ := tbind_inv h1
    obtain ⟨t2, c5, _, h1⟩ := tbind_inv h1
    obtain ⟨v, c6, _, h1⟩ := tbind_inv h1
    obtain ⟨hp, hc⟩ := orPanic_ok h1; clear h1; subst hc
    obtain ⟨u3, h2, h3⟩ := hu.put (if u.scope ≠ [] then u.scope ++ '.' :: t.text o else t.text o) v
    rw [hp] at h2
    cases h2
    exact h3
  · cases h

theorem tExpect_inv {t : TTok} {x : Unit} {c c1 : Cur} (h : tExpect o t c = .ok x c1) : tNext o c = .ok t c1 := by
  simp only [tExpect] at h
  obtain ⟨t', c2, h1, h⟩ := tbind_inv h
  split at h
  · cases h
  · rename_i ht
    cases h
    rw [h1, Decidable.not_not.1 ht]

/-- A line that panics is a `[[name]]` header. -/
theorem tLine_panic {n : Nat} {u : TOut} (hu : u.Valid) {c : Cur} (h : tLine o n u c = .panic) :
    ∃ t c1 c2 c3 c4 c5, tNext o c = .ok .blockOpen c1 ∧ tNext o c1 = .ok .blockOpen c2 ∧ tNext o c2 = .ok t c3 ∧
      tNext o c3 = .ok .blockClose c4 ∧ tNext o c4 = .ok .blockClose c5 ∧ t.isTable = true ∧
      u.startArray (t.text o) = none := by
  simp only [tLine] at h
  rcases bind_panic_inv h with h | ⟨t0, c1, g1, h⟩
  · exact absurd h (tNext_safe _)
  split at h
  · cases h
  split at h
  · rename_i hb
    subst hb
    rcases bind_panic_inv h with h | ⟨u', c', _, h⟩
    · simp only [tHeader] at h
      rcases bind_panic_inv h with h | ⟨t1, c2, g2, h⟩
      · exact absurd h (tNext_safe _)
      cases t1 <;> simp only at h
      case str =>
        rcases bind_panic_inv h with h | ⟨_, c', _, h⟩
        · exact absurd h (tExpect_safe _ _)
        · cases h
      case ident =>
        rcases bind_panic_inv h with h | ⟨_, c', _, h⟩
        · exact absurd h (tExpect_safe _ _)
        · cases h
      case blockOpen =>
        rcases bind_panic_inv h with h | ⟨t, c3, g3, h⟩
        · exact absurd h (tNext_safe _)
        split at h
        · rename_i ht
          rcases bind_panic_inv h with h | ⟨_, c4, g4, h⟩
          · exact absurd h (tExpect_safe _ _)
          rcases bind_panic_inv h with h | ⟨_, c5, g5, h⟩
          · exact absurd h (tExpect_safe _ _)
          rcases bind_panic_inv h with h | ⟨_, c6, _, h⟩
          · refine ⟨t, c1, c2, c3, c4, c5, g1, g2, g3, tExpect_inv g4, tExpect_inv g5, ht, ?_⟩
            cases hs : u.startArray (t.text o) with
            | none => rfl
            | some u' => rw [hs] at h; cases h
          · cases h
        · cases h
      all_goals cases h
    · cases h
  split at h
  · rcases bind_panic_inv h with h | ⟨u', c', _, h⟩
    · simp only [tKeyValue] at h
      rcases bind_panic_inv h with h | ⟨_, c2, _, h⟩
      · exact absurd h (tExpect_safe _ _)
      rcases bind_panic_inv h with h | ⟨_, c3, _, h⟩
      · exact absurd h (tNext_safe _)
      rcases bind_panic_inv h with h | ⟨v, c4, _, h⟩
      · exact absurd h ((tVal_safe _).1 _ _)
      obtain ⟨u3, h2, h3⟩ := hu.put (if u.scope ≠ [] then u.scope ++ '.' :: t0.text o else t0.text o) v
      rw [h2] at h
      cases h
    · cases h
  · cases h

theorem tEnd_nil {c : Cur} (h : c.txt = []) : ∃ c', tNext o c = .ok .eof c' ∧ c'.txt = [] :=
  tNext_end (.inl .nil) h

theorem tLoop_panic {n : Nat} : ∀ {u : TOut} {c : Cur}, u.Valid → tLoop o n u c = .panic →
    ∃ (a h r : List Char) (u1 : TOut) (name : List Char), c.txt = a ++ (h ++ r) ∧
      (∀ c', c'.txt = a → ∃ s, tLoop o n u c' = .ok u1.out s) ∧
      (∀ c', c'.txt = h → ∃ s, tLoop o 2 ⟨[], none, []⟩ c' = .ok [(name, .array [[]])] s) ∧
      u1.startArray name = none := by
  induction n with
  | zero => intro u c _ h; cases h
  | succ n ih =>
    intro u c hu h
    simp only [tLoop] at h
    rcases bind_panic_inv h with h | ⟨r, c1, g, h⟩
    · obtain ⟨t, c1, c2, c3, c4, c5, h1, h2, h3, h4, h5, ht, hs⟩ := tLine_panic hu h
      obtain ⟨b1, e1, l1⟩ := tNext_local _ _ _ h1
      obtain ⟨b2, e2, l2⟩ := tNext_local _ _ _ h2
      obtain ⟨b3, e3, l3⟩ := tNext_local _ _ _ h3
      obtain ⟨b4, e4, l4⟩ := tNext_local _ _ _ h4
      obtain ⟨b5, e5, l5⟩ := tNext_local _ _ _ h5
      refine ⟨[], b1 ++ (b2 ++ (b3 ++ (b4 ++ b5))), c5.txt, u, t.text o, by rw [e1, e2, e3, e4, e5]; simp, ?_, ?_, hs⟩
      · intro c' hc'
        obtain ⟨d, hd, _⟩ := tEnd_nil (o := o) hc'
        exact ⟨d, tLoop_end hd n u⟩
      · intro d0 hd0
        obtain ⟨d1, p1, q1⟩ := l1 (b2 ++ (b3 ++ (b4 ++ b5))) c5.txt d0 (by rw [e2, e3, e4, e5]; simp) (by rw [hd0])
        obtain ⟨d2, p2, q2⟩ := l2 (b3 ++ (b4 ++ b5)) c5.txt d1 (by rw [e3, e4, e5]; simp) q1
        obtain ⟨d3, p3, q3⟩ := l3 (b4 ++ b5) c5.txt d2 (by rw [e4, e5]; simp) q2
        obtain ⟨d4, p4, q4⟩ := l4 b5 c5.txt d3 (by rw [e5]) q3
        obtain ⟨d5, p5, q5⟩ := l5 [] c5.txt d4 (by simp) (by simpa using q4)
        obtain ⟨d6, p6, _⟩ := tEnd_nil (o := o) q5
        refine ⟨d6, ?_⟩
        have hx : ∀ (t : TTok) (c c' : Cur), tNext o c = .ok t c' → tExpect o t c = .ok () c' := by
          intro t c c' h
          simp only [tExpect]
          rw [M.bind_ok h]
          simp only [ne_eq, not_true_eq_false, if_false]
          rfl
        have hst : (TOut.mk [] none []).startArray (t.text o) = some ⟨[(t.text o, .array [[]])], some (t.text o, 0), []⟩ := by
          simp [TOut.startArray, tGet, tInsert]
        have hline : tLine o 1 ⟨[], none, []⟩ d0 = .ok (some ⟨[(t.text o, .array [[]])], some (t.text o, 0), []⟩) d5 := by
          simp only [tLine]
          rw [M.bind_ok p1]
          simp only [reduceCtorEq, if_false, if_true]
          have : tHeader o ⟨[], none, []⟩ d1 = .ok ⟨[(t.text o, .array [[]])], some (t.text o, 0), []⟩ d5 := by
            simp only [tHeader]
            rw [M.bind_ok p2]
            simp only
            rw [M.bind_ok p3]
            simp only [ht, if_true]
            rw [M.bind_ok (hx _ _ _ p4), M.bind_ok (hx _ _ _ p5), hst]
            rfl
          rw [M.bind_ok this]
          rfl
        show tLoop o (1 + 1) _ _ = _
        simp only [tLoop]
        rw [M.bind_ok hline]
        exact tLoop_end p6 0 _
    · cases r with
      | none => cases h
      | some u' =>
        obtain ⟨a, hh, r, u1, name, i1, i2, i3, i4⟩ := ih (tLine_valid hu g) h
        obtain ⟨b, e1, l1⟩ := tLine_local n u c _ _ g
        refine ⟨b ++ a, hh, r, u1, name, by rw [e1, i1]; simp, ?_, i3, i4⟩
        intro c' hc'
        obtain ⟨c2, p1, p2⟩ := l1 a (hh ++ r) c' i1 hc'
        obtain ⟨s, hs⟩ := i2 c2 p2
        refine ⟨s, ?_⟩
        simp only [tLoop]
        rw [M.bind_ok p1]
        exact hs

end NS
