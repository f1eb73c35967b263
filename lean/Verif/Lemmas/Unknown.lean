import Verif.Spec.Unknown
/-! When a reader meets no unknown member and no time out of range. -/
namespace NS
variable {env : Env}

theorem not_trips {t : Ty} {J : JTree} (h1 : ∀ fs ms, ObjectOf env t J fs ms → ∀ k x, (.str k, x) ∈ ms → ∃ f ∈ fs, f.skip = false ∧ f.jsonName = k)
    (h2 : t = .dur → ¬ LateBy (2 ^ 64) J) (h3 : t = .time → ¬ LateBy (2 ^ 63) J) (h4 : ∀ u x, ReadsPart env t J u x → ¬ Trips env u x) : ¬ Trips env t J := by
  intro h
  cases h with
  | unknown ho _ hm hno =>
    obtain ⟨f, hf, hs, hk⟩ := h1 _ _ ho _ _ hm
    exact hno f hf hs hk
  | dur h => exact h2 rfl h
  | time h => exact h3 rfl h
  | part hr h => exact h4 _ _ hr h

theorem not_trips_leaf {t : Ty} (ht : t = .unit ∨ t = .bool ∨ (∃ k, t = .int k) ∨ t = .f32 ∨ t = .f64 ∨ t = .str) (J : JTree) : ¬ Trips env t J := by
  have key : (∀ i, t ≠ .named i) ∧ t ≠ .dur ∧ t ≠ .time ∧ ∀ u x, ¬ ReadsPart env t J u x := by
    rcases ht with rfl | rfl | ⟨k, rfl⟩ | rfl | rfl | rfl <;> refine ⟨by simp, by simp, by simp, fun u x h => ?_⟩ <;>
      (cases h with
      | item hh _ => simp at hh
      | key hh _ => simp at hh
      | value hh _ => simp at hh
      | component hh => simp [Ty.components] at hh
      | field ho _ _ _ => cases ho)
  refine not_trips (fun fs ms ho => ?_) (fun h => absurd h key.2.1) (fun h => absurd h key.2.2.1) (fun u x h => absurd h (key.2.2.2 u x))
  cases ho <;> exact absurd rfl (key.1 _)

theorem not_trips_dur {J : JTree} (h : ¬ LateBy (2 ^ 64) J) : ¬ Trips env .dur J := by
  refine not_trips (fun fs ms ho => (by cases ho)) (fun _ => h) (fun h => (by cases h)) (fun u x h => ?_)
  cases h with
  | item hh _ => simp at hh
  | key hh _ => simp at hh
  | value hh _ => simp at hh
  | component hh => simp [Ty.components] at hh
  | field ho _ _ _ => cases ho

theorem not_trips_time {J : JTree} (h : ¬ LateBy (2 ^ 63) J) : ¬ Trips env .time J := by
  refine not_trips (fun fs ms ho => (by cases ho)) (fun h => (by cases h)) (fun _ => h) (fun u x h => ?_)
  cases h with
  | item hh _ => simp at hh
  | key hh _ => simp at hh
  | value hh _ => simp at hh
  | component hh => simp [Ty.components] at hh
  | field ho _ _ _ => cases ho

theorem not_trips_option {t : Ty} {J : JTree} (h : ¬ Trips env t J) : ¬ Trips env (.option t) J := by
  refine not_trips (fun fs ms ho => (by cases ho)) (fun h => (by cases h)) (fun h => (by cases h)) (fun u x hr => ?_)
  cases hr with
  | some => exact h
  | item hh _ => simp at hh
  | key hh _ => simp at hh
  | value hh _ => simp at hh
  | component hh => simp [Ty.components] at hh
  | field ho _ _ _ => cases ho

theorem not_trips_box {t : Ty} {J : JTree} (h : ¬ Trips env t J) : ¬ Trips env (.box t) J := by
  refine not_trips (fun fs ms ho => (by cases ho)) (fun h => (by cases h)) (fun h => (by cases h)) (fun u x hr => ?_)
  cases hr with
  | box => exact h
  | item hh _ => simp at hh
  | key hh _ => simp at hh
  | value hh _ => simp at hh
  | component hh => simp [Ty.components] at hh
  | field ho _ _ _ => cases ho

theorem not_trips_proxied {i : Nat} {px : Proxy} (hpx : env.proxies[i]? = some px) {J : JTree} (h : ¬ Trips env px.ty J) : ¬ Trips env (.proxied i) J := by
  refine not_trips (fun fs ms ho => (by cases ho)) (fun h => (by cases h)) (fun h => (by cases h)) (fun u x hr => ?_)
  cases hr with
  | proxied he => rw [hpx] at he; injection he with he; exact he ▸ h
  | item hh _ => simp at hh
  | key hh _ => simp at hh
  | value hh _ => simp at hh
  | component hh => simp [Ty.components] at hh
  | field ho _ _ _ => cases ho

theorem not_trips_items {t u : Ty} (ht : t = .vec u ∨ t = .linked u ∨ t = .hset u ∨ t = .bset u) {xs : List JTree} {tr : Bool}
    (h : ∀ x ∈ xs, ¬ Trips env u x) : ¬ Trips env t (.arr xs tr) := by
  rcases ht with rfl | rfl | rfl | rfl <;>
  · refine not_trips (fun fs ms ho => (by cases ho)) (fun h => (by cases h)) (fun h => (by cases h)) (fun u x hr => ?_)
    cases hr with
    | item hu hx => simp at hu; exact hu ▸ h _ hx
    | component hh => simp [Ty.components] at hh
    | field ho _ _ _ => cases ho

theorem not_trips_array {u : Ty} {n : Nat} {xs : List JTree} {tr : Bool} (h : ∀ x ∈ xs, ¬ Trips env u x) : ¬ Trips env (.array u n) (.arr xs tr) := by
  refine not_trips (fun fs ms ho => (by cases ho)) (fun h => (by cases h)) (fun h => (by cases h)) (fun u x hr => ?_)
  cases hr with
  | array hx => exact h _ hx
  | item hh _ => simp at hh
  | component hh => simp [Ty.components] at hh
  | field ho _ _ _ => cases ho

theorem not_trips_components {t : Ty} (ht : t.components ≠ []) {xs : List JTree} {tr : Bool} (h : ∀ p ∈ t.components.zip xs, ¬ Trips env p.1 p.2) :
    ¬ Trips env t (.arr xs tr) := by
  cases t <;> simp only [Ty.components, ne_eq, not_true_eq_false] at ht <;>
  · refine not_trips (fun fs ms ho => (by cases ho)) (fun h => (by cases h)) (fun h => (by cases h)) (fun u x hr => ?_)
    cases hr with
    | item hh _ => simp at hh
    | component hp => exact h _ hp
    | field ho _ _ _ => cases ho

theorem not_trips_map {t k u : Ty} (ht : t = .hmap k u ∨ t = .bmap k u) {ms : List (JTree × JTree)} {tr : Bool}
    (h : ∀ m ∈ ms, ¬ Trips env k m.1 ∧ ¬ Trips env u m.2) : ¬ Trips env t (.obj ms tr) := by
  rcases ht with rfl | rfl <;>
  · refine not_trips (fun fs ms ho => (by cases ho)) (fun h => (by cases h)) (fun h => (by cases h)) (fun u x hr => ?_)
    cases hr with
    | key hu hx => simp at hu; exact hu.1 ▸ (h _ hx).1
    | value hu hx => simp at hu; exact hu.2 ▸ (h _ hx).2
    | field ho _ _ _ => cases ho

theorem not_trips_tuple {i : Nat} {ts : List Ty} {b : Bool} (hd : env.defs[i]? = some (.tuple ts b)) (hb : ts.length = 1 → b = false)
    {xs : List JTree} {tr : Bool} (h : ∀ p ∈ ts.zip xs, ¬ Trips env p.1 p.2) : ¬ Trips env (.named i) (.arr xs tr) := by
  refine not_trips (fun fs ms ho => (by cases ho)) (fun h => (by cases h)) (fun h => (by cases h)) (fun u x hr => ?_)
  cases hr with
  | transparent he => rw [hd] at he; injection he with he; injection he with h1 h2; subst h1 h2; exact absurd (hb rfl) (by decide)
  | tuple he _ hp => rw [hd] at he; injection he with he; injection he with h1 h2; subst h1; exact h _ hp
  | item hh _ => simp at hh
  | component hh => simp [Ty.components] at hh
  | field ho _ _ _ => cases ho

theorem not_trips_unit_struct {i : Nat} {b : Bool} (hd : env.defs[i]? = some (.tuple [] b)) {ms : List (JTree × JTree)} {tr : Bool} :
    ¬ Trips env (.named i) (.obj ms tr) := by
  have hno : ∀ fs ms', ¬ ObjectOf env (.named i) (.obj ms tr) fs ms' := by
    intro fs ms' ho
    cases ho with
    | struct he => rw [hd] at he; cases he
    | variant he _ _ => rw [hd] at he; cases he
  refine not_trips (fun fs ms ho => absurd ho (hno _ _)) (fun h => (by cases h)) (fun h => (by cases h)) (fun u x hr => ?_)
  cases hr with
  | transparent he => rw [hd] at he; cases he
  | key hh _ => simp at hh
  | value hh _ => simp at hh
  | field ho _ _ _ => exact absurd ho (hno _ _)
  | variant he _ _ _ => rw [hd] at he; cases he

theorem not_trips_transparent {i : Nat} {t : Ty} (hd : env.defs[i]? = some (.tuple [t] true)) {J : JTree} (h : ¬ Trips env t J) :
    ¬ Trips env (.named i) J := by
  have hno : ∀ fs ms', ¬ ObjectOf env (.named i) J fs ms' := by
    intro fs ms' ho
    cases ho with
    | struct he => rw [hd] at he; cases he
    | variant he _ _ => rw [hd] at he; cases he
  refine not_trips (fun fs ms ho => absurd ho (hno _ _)) (fun h => (by cases h)) (fun h => (by cases h)) (fun u x hr => ?_)
  cases hr with
  | transparent he => rw [hd] at he; injection he with he; injection he with h1 h2; injection h1 with h1; exact h1 ▸ h
  | tuple he hb _ => rw [hd] at he; injection he with he; injection he with h1 h2; subst h1 h2; exact absurd (hb rfl) (by decide)
  | item hh _ => simp at hh
  | key hh _ => simp at hh
  | value hh _ => simp at hh
  | component hh => simp [Ty.components] at hh
  | field ho _ _ _ => exact absurd ho (hno _ _)
  | variant he _ _ _ => rw [hd] at he; cases he

/-- The members of an object are fields. -/
def Members (env : Env) (fs : List Field) (ms : List (JTree × JTree)) : Prop :=
  ∀ m ∈ ms, ∃ f ∈ fs, f.skip = false ∧ m.1 = .str f.jsonName ∧ ¬ Trips env f.ty m.2

theorem same_field {fs : List Field} (hd : (fs.filter fun f => !f.skip).Pairwise fun f g => f.jsonName ≠ g.jsonName) {f g : Field} (hf : f ∈ fs) (hg : g ∈ fs)
    (hfs : f.skip = false) (hgs : g.skip = false) (h : f.jsonName = g.jsonName) : f = g := by
  have hf' : f ∈ fs.filter fun f => !f.skip := List.mem_filter.2 ⟨hf, by simp [hfs]⟩
  have hg' : g ∈ fs.filter fun f => !f.skip := List.mem_filter.2 ⟨hg, by simp [hgs]⟩
  obtain ⟨a, ha, rfl⟩ := List.getElem_of_mem hf'
  obtain ⟨b, hb, rfl⟩ := List.getElem_of_mem hg'
  have := List.pairwise_iff_getElem.1 hd
  rcases Nat.lt_trichotomy a b with h' | rfl | h'
  · exact absurd h (this a b ha hb h')
  · rfl
  · exact absurd h.symm (this b a hb ha h')

theorem not_trips_struct {i : Nat} {fs : List Field} {cd nul : Bool} (he : env.defs[i]? = some (.struct fs cd nul))
    (hd : (fs.filter fun f => !f.skip).Pairwise fun f g => f.jsonName ≠ g.jsonName) {ms : List (JTree × JTree)} {tr : Bool}
    (h : Members env fs ms) : ¬ Trips env (.named i) (.obj ms tr) := by
  have hno : ∀ fs' ms', ObjectOf env (.named i) (.obj ms tr) fs' ms' → fs' = fs ∧ ms' = ms := by
    intro fs' ms' ho
    cases ho with
    | struct he' => rw [he] at he'; injection he' with he'; injection he' with h1; exact ⟨h1.symm, rfl⟩
    | variant he' _ _ => rw [he] at he'; cases he'
  refine not_trips (fun fs' ms' ho k x hm => ?_) (fun h => (by cases h)) (fun h => (by cases h)) (fun u x hr => ?_)
  · obtain ⟨rfl, rfl⟩ := hno _ _ ho
    obtain ⟨f, hf, hs, hk, _⟩ := h _ hm
    injection hk with hk
    exact ⟨f, hf, hs, hk.symm⟩
  · cases hr with
    | transparent he' => rw [he] at he'; cases he'
    | key hh _ => simp at hh
    | value hh _ => simp at hh
    | field ho hf hs hm =>
      obtain ⟨rfl, rfl⟩ := hno _ _ ho
      obtain ⟨g, hg, hgs, hk, hg'⟩ := h _ hm
      injection hk with hk
      rw [same_field hd hf hg hs hgs hk]
      exact hg'
    | variant he' _ _ _ => rw [he] at he'; cases he'

theorem not_trips_unit_variant {i : Nat} {vars : List Variant} (he : env.defs[i]? = some (.enum vars)) {k : List Char} :
    ¬ Trips env (.named i) (.str k) := by
  refine not_trips (fun fs' ms' ho => (by cases ho)) (fun h => (by cases h)) (fun h => (by cases h)) (fun u x hr => ?_)
  cases hr with
  | transparent he' => rw [he] at he'; cases he'
  | field ho hf hs hm => cases ho

theorem same_variant {vars : List Variant} (hd : vars.Pairwise fun v w => (v.shape = .unit ↔ w.shape = .unit) → v.jsonName ≠ w.jsonName)
    {v w : Variant} (hv : v ∈ vars) (hw : w ∈ vars) (hvs : v.shape ≠ .unit) (hws : w.shape ≠ .unit) (h : v.jsonName = w.jsonName) : v = w := by
  obtain ⟨a, ha, rfl⟩ := List.getElem_of_mem hv
  obtain ⟨b, hb, rfl⟩ := List.getElem_of_mem hw
  have := List.pairwise_iff_getElem.1 hd
  rcases Nat.lt_trichotomy a b with h' | rfl | h'
  · exact absurd h (this a b ha hb h' (by simp [hvs, hws]))
  · rfl
  · exact absurd h.symm (this b a hb ha h' (by simp [hvs, hws]))

theorem not_trips_variant {i : Nat} {vars : List Variant} (he : env.defs[i]? = some (.enum vars))
    (hd : vars.Pairwise fun v w => (v.shape = .unit ↔ w.shape = .unit) → v.jsonName ≠ w.jsonName) {v : Variant} (hv : v ∈ vars) {x : JTree} {tr : Bool} {rest}
    (h1 : ∀ ts, v.shape = .tuple ts → ∀ xs tr, x = .arr xs tr → ∀ p ∈ ts.zip xs, ¬ Trips env p.1 p.2)
    (h2 : ∀ fs, v.shape = .named fs → (fs.filter fun f => !f.skip).Pairwise (fun f g => f.jsonName ≠ g.jsonName) ∧
      ∀ ms tr, x = .obj ms tr → Members env fs ms) (hu : v.shape ≠ .unit) :
    ¬ Trips env (.named i) (.obj ((.str v.jsonName, x) :: rest) tr) := by
  have hno : ∀ fs ms, ObjectOf env (.named i) (.obj ((.str v.jsonName, x) :: rest) tr) fs ms → v.shape = .named fs ∧ Members env fs ms := by
    intro fs ms ho
    generalize hk : v.jsonName = k at ho
    cases ho with
    | struct he' => rw [he] at he'; cases he'
    | @variant _ _ w _ _ _ _ _ he' hw hs =>
      rw [he] at he'
      injection he' with he'
      injection he' with he'
      subst he'
      have := same_variant hd hv hw hu (by rw [hs]; simp) hk
      subst this
      exact ⟨hs, (h2 _ hs).2 _ _ rfl⟩
  refine not_trips (fun fs' ms' ho k x hm => ?_) (fun h => (by cases h)) (fun h => (by cases h)) (fun u y hr => ?_)
  · obtain ⟨_, hm'⟩ := hno _ _ ho
    obtain ⟨f, hf, hs, hk, _⟩ := hm' _ hm
    injection hk with hk
    exact ⟨f, hf, hs, hk.symm⟩
  · generalize hk : v.jsonName = k at hr hno
    cases hr with
    | transparent he' => rw [he] at he'; cases he'
    | key hh _ => simp at hh
    | value hh _ => simp at hh
    | field ho hf hs hm =>
      obtain ⟨hsh, hm'⟩ := hno _ _ ho
      obtain ⟨g, hg, hgs, hk, hg'⟩ := hm' _ hm
      injection hk with hk
      rw [same_field (h2 _ hsh).1 hf hg hs hgs hk]
      exact hg'
    | @variant _ _ w _ _ _ _ _ _ he' hw hs hp =>
      rw [he] at he'
      injection he' with he'
      injection he' with he'
      subst he'
      have := same_variant hd hv hw hu (by rw [hs]; simp) hk
      subst this
      exact h1 _ hs _ _ rfl _ hp

theorem not_trips_of_null {t : Ty} : ¬ Trips env t .null := by
  intro h
  generalize hJ : JTree.null = J at h
  induction h with
  | unknown ho => subst hJ; cases ho
  | dur h | time h =>
    subst hJ
    obtain ⟨v, hv, _⟩ := h
    simp [JTree.lexemes] at hv
  | part hr _ ih =>
    subst hJ
    refine ih ?_
    cases hr with
    | field ho => cases ho
    | _ => rfl

end NS
