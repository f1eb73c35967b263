import Verif.Spec.JsonMeans
import Verif.Lemmas.JsonEnum
import Verif.Lemmas.CollSpec
/-! The reference decoder computes what `JsonMeans` says. -/
namespace NS
variable {env : Env} {fl : FloatOps} {D : Ty → Option JTree → Dec Val}

theorem exists_preimage {α β : Type} {g : β → α} {Q : β → Prop} (ms : List α) (h : ∀ m ∈ ms, ∃ p, g p = m ∧ Q p) :
    ∃ ps : List β, ps.map g = ms ∧ ∀ p ∈ ps, Q p := by
  induction ms with
  | nil => exact ⟨[], rfl, by simp⟩
  | cons m ms ih =>
    obtain ⟨p, h1, h2⟩ := h m (by simp)
    obtain ⟨ps, h3, h4⟩ := ih fun x hx => h x (by simp [hx])
    refine ⟨p :: ps, by simp [h1, h3], fun q hq => ?_⟩
    rcases List.mem_cons.1 hq with rfl | hq
    · exact h2
    · exact h4 q hq

/-- Items inserted one by one. -/
theorem fold_items {d : JTree → Dec Val} {ins : List Val → Val → List Val} (xs : List JTree) (acc r : List Val) :
    foldD (fun acc x => (d x).bind fun v => .ok (ins acc v)) acc xs = .ok r ↔
      ∃ ps : List (JTree × Val), ps.map (·.1) = xs ∧ (∀ p ∈ ps, d p.1 = .ok p.2) ∧ r = (ps.map (·.2)).foldl ins acc := by
  induction xs generalizing acc with
  | nil =>
    constructor
    · intro h; injection h with h; exact ⟨[], rfl, by simp, h.symm⟩
    · rintro ⟨ps, h1, _, rfl⟩
      have : ps = [] := by simpa using h1
      subst this; rfl
  | cons x xs ih =>
    simp only [foldD]
    rw [Dec.bind_eq_ok]
    constructor
    · rintro ⟨a, h1, h2⟩
      obtain ⟨v, h3, h4⟩ := Dec.bind_eq_ok.1 h1
      injection h4 with h4
      subst h4
      obtain ⟨ps, h5, h6, rfl⟩ := (ih _).1 h2
      refine ⟨(x, v) :: ps, by simp [h5], fun p hp => ?_, rfl⟩
      rcases List.mem_cons.1 hp with rfl | hp
      · exact h3
      · exact h6 p hp
    · rintro ⟨ps, h1, h2, rfl⟩
      cases ps with
      | nil => simp at h1
      | cons p ps =>
        simp only [List.map_cons, List.cons.injEq] at h1
        obtain ⟨rfl, h1⟩ := h1
        refine ⟨ins acc p.2, Dec.bind_eq_ok.2 ⟨p.2, h2 p (by simp), rfl⟩, ?_⟩
        exact (ih _).2 ⟨ps, h1, fun q hq => h2 q (by simp [hq]), rfl⟩

/-- Entries inserted one by one. -/
theorem fold_entries {dk dv : JTree → Dec Val} {ins : List Val → Val → List Val} (ms : List (JTree × JTree)) (acc r : List Val) :
    foldD (fun acc m => (dk m.1).bind fun a => (dv m.2).bind fun b => .ok (ins acc (.entry a b))) acc ms = .ok r ↔
      ∃ ps : List ((JTree × Val) × (JTree × Val)), ps.map (fun p => (p.1.1, p.2.1)) = ms ∧
        (∀ p ∈ ps, dk p.1.1 = .ok p.1.2) ∧ (∀ p ∈ ps, dv p.2.1 = .ok p.2.2) ∧
        r = (ps.map fun p => Val.entry p.1.2 p.2.2).foldl ins acc := by
  induction ms generalizing acc with
  | nil =>
    constructor
    · intro h; injection h with h; exact ⟨[], rfl, by simp, by simp, h.symm⟩
    · rintro ⟨ps, h1, _, _, rfl⟩
      have : ps = [] := by simpa using h1
      subst this; rfl
  | cons m ms ih =>
    simp only [foldD]
    rw [Dec.bind_eq_ok]
    constructor
    · rintro ⟨a, h1, h2⟩
      obtain ⟨k, h3, h4⟩ := Dec.bind_eq_ok.1 h1
      obtain ⟨v, h5, h4⟩ := Dec.bind_eq_ok.1 h4
      injection h4 with h4
      subst h4
      obtain ⟨ps, h6, h7, h8, rfl⟩ := (ih _).1 h2
      refine ⟨((m.1, k), (m.2, v)) :: ps, by simp [h6], fun p hp => ?_, fun p hp => ?_, rfl⟩
      · rcases List.mem_cons.1 hp with rfl | hp
        · exact h3
        · exact h7 p hp
      · rcases List.mem_cons.1 hp with rfl | hp
        · exact h5
        · exact h8 p hp
    · rintro ⟨ps, h1, h2, h3, rfl⟩
      cases ps with
      | nil => simp at h1
      | cons p ps =>
        simp only [List.map_cons, List.cons.injEq] at h1
        obtain ⟨rfl, h1⟩ := h1
        refine ⟨ins acc (.entry p.1.2 p.2.2), Dec.bind_eq_ok.2 ⟨p.1.2, h2 p (by simp), Dec.bind_eq_ok.2 ⟨p.2.2, h3 p (by simp), rfl⟩⟩, ?_⟩
        exact (ih _).2 ⟨ps, h1, fun q hq => h2 q (by simp [hq]), fun q hq => h3 q (by simp [hq]), rfl⟩

theorem decTys_ps (ts : List Ty) (xs : List JTree) (vs : List Val) : decTys D ts xs = .ok vs ↔
    ∃ ps : List (Ty × JTree × Val), ps.map (·.1) = ts ∧ ps.map (·.2.1) = xs ∧ ps.map (·.2.2) = vs ∧
      ∀ p ∈ ps, D p.1 (some p.2.1) = .ok p.2.2 := by
  induction ts generalizing xs vs with
  | nil =>
    cases xs with
    | nil =>
      simp only [decTys]
      constructor
      · intro h; injection h with h; exact ⟨[], rfl, rfl, h, by simp⟩
      · rintro ⟨ps, h1, _, rfl, _⟩
        have : ps = [] := by simpa using h1
        subst this; rfl
    | cons x xs =>
      simp only [decTys]
      constructor
      · intro h; cases h
      · rintro ⟨ps, h1, h2, _⟩
        have : ps = [] := by simpa using h1
        subst this; simp at h2
  | cons t ts ih =>
    cases xs with
    | nil =>
      simp only [decTys]
      constructor
      · intro h
        obtain ⟨_, _, h⟩ := Dec.bind_eq_ok.1 h
        cases h
      · rintro ⟨ps, h1, h2, _⟩
        have : ps = [] := by simpa using h2
        subst this; simp at h1
    | cons x xs =>
      simp only [decTys]
      rw [Dec.bind_eq_ok]
      constructor
      · rintro ⟨v, h1, h2⟩
        obtain ⟨ws, h3, h4⟩ := Dec.bind_eq_ok.1 h2
        injection h4 with h4
        subst h4
        obtain ⟨ps, rfl, rfl, rfl, h5⟩ := (ih _ _).1 h3
        refine ⟨(t, x, v) :: ps, rfl, rfl, rfl, fun p hp => ?_⟩
        rcases List.mem_cons.1 hp with rfl | hp
        · exact h1
        · exact h5 p hp
      · rintro ⟨ps, h1, h2, h3, h4⟩
        cases ps with
        | nil => simp at h1
        | cons p ps =>
          simp only [List.map_cons, List.cons.injEq] at h1 h2
          obtain ⟨rfl, h1⟩ := h1
          obtain ⟨rfl, h2⟩ := h2
          refine ⟨p.2.2, h4 p (by simp), Dec.bind_eq_ok.2 ⟨ps.map (·.2.2), ?_, by rw [← h3]; rfl⟩⟩
          exact (ih _ _).2 ⟨ps, h1, h2, rfl, fun q hq => h4 q (by simp [hq])⟩

theorem decTuple_ps (ts : List Ty) (J : JTree) (vs : List Val) : decTuple D ts (some J) = .ok vs ↔
    ∃ (ps : List (Ty × JTree × Val)) (tr : Bool), ps.map (·.1) = ts ∧ J = .arr (ps.map (·.2.1)) tr ∧ ps.map (·.2.2) = vs ∧
      ∀ p ∈ ps, D p.1 (some p.2.1) = .ok p.2.2 := by
  cases J with
  | arr xs tr =>
    simp only [decTuple]
    rw [decTys_ps]
    constructor
    · rintro ⟨ps, h1, h2, h3, h4⟩; exact ⟨ps, tr, h1, by rw [h2], h3, h4⟩
    · rintro ⟨ps, tr', h1, h2, h3, h4⟩; cases h2; exact ⟨ps, h1, rfl, h3, h4⟩
  | _ => simp [decTuple]

theorem decField_wrap {f : Field} {J : JTree} {w : Val} : decField D f J = .ok w ↔
    ∃ r, D f.readTy (some J) = .ok r ∧ w = f.wrap r := by
  unfold decField Field.readTy Field.wrap
  generalize f.optProxy = p
  generalize f.ty = T
  have same : ∀ d : Dec Val, d = .ok w ↔ ∃ r, d = .ok r ∧ w = r := by
    intro d
    constructor
    · intro h; exact ⟨w, h, rfl⟩
    · rintro ⟨r, h, rfl⟩; exact h
  cases p with
  | false => exact same _
  | true =>
    cases T with
    | option t =>
      simp only
      rw [Dec.bind_eq_ok]
      constructor
      · rintro ⟨v, h, h'⟩; injection h' with h'; exact ⟨v, h, h'.symm⟩
      · rintro ⟨v, h, rfl⟩; exact ⟨v, h, rfl⟩
    | _ => exact same _

theorem lastMember_map {ps : List JMember} {k : List Char} {J : JTree} :
    LastMember (ps.map fun p => (JTree.str p.1, p.2.1)) k J ↔
      ∃ a p b, ps = a ++ p :: b ∧ p.1 = k ∧ p.2.1 = J ∧ ∀ q ∈ b, q.1 ≠ k := by
  constructor
  · rintro ⟨a, b, h1, h2⟩
    obtain ⟨a', l, rfl, rfl, h3⟩ := List.map_eq_append_iff.1 h1
    obtain ⟨p, b', rfl, h4, rfl⟩ := List.map_eq_cons_iff.1 h3
    simp only [Prod.mk.injEq, JTree.str.injEq] at h4
    refine ⟨a', p, b', rfl, h4.1, h4.2, fun q hq e => ?_⟩
    exact h2 (.str q.1, q.2.1) (List.mem_map_of_mem (f := fun p : JMember => (JTree.str p.1, p.2.1)) hq) (by simp [e])
  · rintro ⟨a, p, b, rfl, rfl, rfl, h⟩
    refine ⟨a.map fun p => (JTree.str p.1, p.2.1), b.map fun p => (JTree.str p.1, p.2.1), by simp, fun m hm => ?_⟩
    obtain ⟨q, hq, rfl⟩ := List.mem_map.1 hm
    simpa using h q hq

theorem noMember_map {ps : List JMember} {k : List Char} :
    NoMember (ps.map fun p => (JTree.str p.1, p.2.1)) k ↔ ∀ q ∈ ps, q.1 ≠ k := by
  constructor
  · intro h q hq e
    exact h (.str q.1, q.2.1) (List.mem_map_of_mem (f := fun p : JMember => (JTree.str p.1, p.2.1)) hq) (by simp [e])
  · intro h m hm
    obtain ⟨q, hq, rfl⟩ := List.mem_map.1 hm
    simpa using h q hq

/-- The members of an object read as fields. -/
theorem decNamed_ps {cd : Bool} {fs : List Field} (hdn : DistinctNames fs) (ms : List (JTree × JTree)) (tr : Bool) (vs : List Val) :
    decNamed D cd fs (some (.obj ms tr)) = .ok vs ↔
      ∃ ps : List JMember, ms = ps.map (fun p => (.str p.1, p.2.1)) ∧ JFieldsGet cd fs ps vs ∧
        ∀ p ∈ ps, ∀ f ∈ fs, f.skip = false → f.jsonName = p.1 → D f.readTy (some p.2.1) = .ok p.2.2 := by
  simp only [decNamed]
  rw [Dec.bind_eq_ok]
  have hsl : ∀ i, i < fs.length → ((fs.map fun _ => (none : Option Val)).mapIdx fun i o =>
      (slot D fs i ms).or o)[i]? = some (slot D fs i ms) := by
    intro i hi
    simp [List.getElem?_eq_getElem hi]
  have lt_of : ∀ {i : Nat} {f}, fs[i]? = some f → i < fs.length := by
    intro i f hi
    rcases Nat.lt_or_ge i fs.length with h | h
    · exact h
    · rw [List.getElem?_eq_none h] at hi; cases hi
  have fv : ∀ ps : List JMember, ms = ps.map (fun p => (.str p.1, p.2.1)) →
      (∀ p ∈ ps, ∀ f ∈ fs, f.skip = false → f.jsonName = p.1 → D f.readTy (some p.2.1) = .ok p.2.2) →
      (∀ m ∈ ms, MReadable D fs m) → ∀ (i : Nat) f w, fs[i]? = some f →
      (JFieldGets cd ps f w ↔ ((f.skip = false ∧ slot D fs i ms = some w) ∨
        ((f.skip = true ∨ slot D fs i ms = none) ∧ f.mayBeAbsent cd ∧ w = f.absentValue))) := by
    intro ps hps hD hr i f w hi
    unfold JFieldGets
    by_cases hs : f.skip = true
    · rw [if_pos hs]
      constructor
      · intro h; exact .inr ⟨.inl hs, .inl hs, h⟩
      · rintro (h | h)
        · rw [hs] at h; cases h.1
        · exact h.2.2
    · rw [if_neg hs]
      have hs' : f.skip = false := by simpa using hs
      obtain ⟨h1, h2⟩ := slot_some hdn hi hs' ms hr
      rw [h1 w, h2]
      have hmem := List.mem_of_getElem? hi
      have e1 : (∃ a p b, ps = a ++ p :: b ∧ p.1 = f.jsonName ∧ (∀ q ∈ b, q.1 ≠ f.jsonName) ∧ w = f.wrap p.2.2) ↔
          ∃ J, LastMember ms f.jsonName J ∧ decField D f J = .ok w := by
        rw [hps]
        constructor
        · rintro ⟨a, p, b, g1, g2, g3, g4⟩
          refine ⟨p.2.1, lastMember_map.2 ⟨a, p, b, g1, g2, rfl, g3⟩, decField_wrap.2 ⟨p.2.2, ?_, g4⟩⟩
          exact hD p (by rw [g1]; simp) f hmem hs' g2.symm
        · rintro ⟨J, g1, g2⟩
          obtain ⟨a, p, b, g3, g4, rfl, g5⟩ := lastMember_map.1 g1
          obtain ⟨r, g6, g7⟩ := decField_wrap.1 g2
          have := hD p (by rw [g3]; simp) f hmem hs' g4.symm
          rw [this] at g6
          injection g6 with g6
          exact ⟨a, p, b, g3, g4, g5, by rw [g7, g6]⟩
      have e2 : NoMember ms f.jsonName ↔ ∀ q ∈ ps, q.1 ≠ f.jsonName := by rw [hps]; exact noMember_map
      rw [e1, e2]
      simp only [hs', true_and, Bool.false_eq_true, false_or]
  constructor
  · rintro ⟨acc, h1, h2⟩
    obtain ⟨hr, rfl⟩ := (fold_members ms _ _).1 h1
    obtain ⟨h3, h4⟩ := (unwrap_ok fs _ (by simp) vs).1 h2
    obtain ⟨ps, hps, hD⟩ := exists_preimage (g := fun p : JMember => (JTree.str p.1, p.2.1))
      (Q := fun p => ∀ f ∈ fs, f.skip = false → f.jsonName = p.1 → D f.readTy (some p.2.1) = .ok p.2.2) ms (by
        rintro ⟨K, J⟩ hm
        obtain ⟨k, hk, _, hread⟩ := hr _ hm
        simp only at hk
        subst hk
        cases hff : findField fs k with
        | none =>
          refine ⟨(k, J, .unit), rfl, fun f hf hs hn => ?_⟩
          obtain ⟨i, hi⟩ := List.getElem?_of_mem hf
          have := (findField_iff hdn).2 ⟨f, hi, hs, hn⟩
          rw [hff] at this
          cases this
        | some i =>
          obtain ⟨w, hw⟩ := hread i hff
          obtain ⟨f, hi, hs, hn⟩ := (findField_iff hdn).1 hff
          have hg : fs.getD i { name := [], ty := .unit } = f := by rw [List.getD_eq_getElem?_getD, hi]; rfl
          rw [hg] at hw
          obtain ⟨r, h5, _⟩ := decField_wrap.1 hw
          refine ⟨(k, J, r), rfl, fun f' hf' hs' hn' => ?_⟩
          obtain ⟨i', hi'⟩ := List.getElem?_of_mem hf'
          have := (findField_iff hdn).2 ⟨f', hi', hs', hn'⟩
          rw [hff] at this
          injection this with this
          subst this
          rw [hi] at hi'
          injection hi' with hi'
          subst hi'
          exact h5)
    refine ⟨ps, hps.symm, ⟨fun hn => ?_, h3, fun i f w hi hv => ?_⟩, hD⟩
    · subst hps
      cases ps with
      | nil => rfl
      | cons p ps =>
        obtain ⟨_, _, h, _⟩ := hr (.str p.1, p.2.1) (by simp)
        exact absurd hn h
    · exact (fv ps hps.symm hD hr i f w hi).2 (h4 i f _ w hi (hsl i (lt_of hi)) hv)
  · rintro ⟨ps, hps, ⟨hn, h3, h4⟩, hD⟩
    have hr : ∀ m ∈ ms, MReadable D fs m := by
      intro m hm
      rw [hps] at hm
      obtain ⟨p, hp, rfl⟩ := List.mem_map.1 hm
      refine ⟨p.1, rfl, fun e => ?_, fun i hi => ?_⟩
      · rw [hn e] at hp; cases hp
      · obtain ⟨f, hf, hs, hname⟩ := (findField_iff hdn).1 hi
        have hg : fs.getD i { name := [], ty := .unit } = f := by rw [List.getD_eq_getElem?_getD, hf]; rfl
        rw [hg]
        exact ⟨_, decField_wrap.2 ⟨p.2.2, hD p hp f (List.mem_of_getElem? hf) hs hname, rfl⟩⟩
    refine ⟨_, (fold_members ms _ _).2 ⟨hr, rfl⟩, (unwrap_ok fs _ (by simp) vs).2 ⟨h3, fun i f o w hi ho hv => ?_⟩⟩
    rw [hsl i (lt_of hi)] at ho
    injection ho with ho
    subst ho
    exact (fv ps hps hD hr i f w hi).1 (h4 i f w hi hv)

end NS
