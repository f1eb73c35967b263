import Verif.Lemmas.Coll
import Verif.Spec.RonMeans
/-! The containers built by insertions are those that the specification describes. -/
namespace NS
variable {env : Env}

theorem firsts_mem {vs : List Val} {q : Val} : q ∈ firsts vs ↔ q ∈ vs := by
  induction vs with
  | nil => simp [firsts]
  | cons x vs ih =>
    simp only [firsts, List.mem_cons, List.mem_filter, ih, decide_eq_true_eq]
    by_cases h : q = x <;> simp [h]

theorem firsts_pairwise (vs : List Val) : (firsts vs).Pairwise (· ≠ ·) := by
  induction vs with
  | nil => simp [firsts]
  | cons x vs ih =>
    simp only [firsts, List.pairwise_cons, List.mem_filter, decide_eq_true_eq]
    exact ⟨fun y hy => fun e => hy.2 e.symm, ih.filter _⟩

theorem firsts_id {vs : List Val} (h : vs.Pairwise (· ≠ ·)) : firsts vs = vs := by
  induction vs with
  | nil => rfl
  | cons x vs ih =>
    rw [List.pairwise_cons] at h
    rw [firsts, ih h.2]
    congr 1
    rw [List.filter_eq_self]
    intro y hy
    simp only [decide_eq_true_eq]
    exact fun e => h.1 y hy e.symm

variable (hk : LawfulKeys env)
include hk

open Classical in
theorem hset_fold_firsts_aux (vs acc : List Val) :
    vs.foldl (collInsert env .hset) acc = acc ++ (firsts vs).filter fun y => decide (y ∉ acc) := by
  induction vs generalizing acc with
  | nil => simp [firsts]
  | cons x vs ih =>
    simp only [List.foldl_cons, collInsert]
    rw [ih]
    unfold hsetInsert
    split
    · rename_i hx
      have hmem : x ∈ acc := by
        rw [List.any_eq_true] at hx
        obtain ⟨a, ha, hq⟩ := hx
        rwa [(hk.keyEq_iff _ _).1 hq]
      simp only [firsts]
      rw [List.filter_cons, if_neg (by simpa using hmem), List.filter_filter]
      congr 1
      apply List.filter_congr
      intro y _
      by_cases hy : y = x
      · subst hy; simp [hmem]
      · simp [hy]
    · rename_i hx
      have hmem : x ∉ acc := by
        intro h
        apply hx
        rw [List.any_eq_true]
        exact ⟨x, h, (hk.keyEq_iff _ _).2 rfl⟩
      simp only [firsts]
      rw [List.filter_cons, if_pos (by simpa using hmem), List.filter_filter]
      simp only [List.append_assoc, List.singleton_append]
      congr 2
      apply List.filter_congr
      intro y _
      by_cases hy : y = x
      · subst hy; simp
      · by_cases hz : y ∈ acc <;> simp [hy, hz]

theorem hset_fold_firsts (vs : List Val) : vs.foldl (collInsert env .hset) [] = firsts vs := by
  rw [hset_fold_firsts_aux hk]
  simp

theorem bset_fold_unique {vs r : List Val} (h : SetOf env vs r) : vs.foldl (collInsert env .bset) [] = r := by
  refine sorted_ext hk (bset_fold_pairwise hk vs [] (by simp)) h.1 fun q => ?_
  rw [bset_fold_mem hk, h.2]
  simp

theorem bmap_fold_unique {es r : List Val} (hE : AllEntries es) (h : LastWins es r)
    (hr : r.Pairwise (fun a b => env.cmp a.key b.key = .lt)) : es.foldl (collInsert env .bmap) [] = r := by
  obtain ⟨h1, h2⟩ := bmap_fold_pairwise hk es [] hE (by simp [AllEntries]) (by simp)
  refine sorted_map_ext hk h1 h.1 h2 hr fun q => ?_
  rw [bmap_fold_get hk _ _ _ hE (by simp [AllEntries]), h.2]
  cases lastVal q es <;> simp [mapGet]

omit hk in
theorem hmapInsert_keys {m : List Val} {k v : Val} (hE : AllEntries m) :
    (hmapInsert env m k v).map Val.key = hsetInsert env (m.map Val.key) k := by
  induction m with
  | nil => simp [hmapInsert, hsetInsert, Val.key]
  | cons y m ih =>
    obtain ⟨a, b, rfl⟩ := hE y (by simp)
    have hm : AllEntries m := fun w hw => hE w (by simp [hw])
    have ih := ih hm
    simp only [hmapInsert]
    unfold hsetInsert at ih ⊢
    simp only [List.map_cons, Val.key, List.any_cons]
    by_cases h : env.keyEq k a = true
    · simp [h, Val.key]
    · simp only [Bool.not_eq_true] at h
      simp only [h, Bool.false_or]
      rw [if_neg (by simp)]
      simp only [List.map_cons, Val.key]
      rw [ih]
      split <;> simp

omit hk in
theorem hmap_fold_keys (es acc : List Val) (hE : AllEntries es) (hA : AllEntries acc) :
    (es.foldl (collInsert env .hmap) acc).map Val.key = (es.map Val.key).foldl (collInsert env .hset) (acc.map Val.key) := by
  induction es generalizing acc with
  | nil => rfl
  | cons y es ih =>
    obtain ⟨a, b, rfl⟩ := hE y (by simp)
    simp only [List.foldl_cons, List.map_cons, collInsert, Val.key]
    rw [ih _ (fun w hw => hE w (by simp [hw])) (hmapInsert_entries hA), hmapInsert_keys hA]

omit hk in
/-- Entries are determined by their different keys in order and the values of these. -/
theorem entries_ext {a b : List Val} (hEa : AllEntries a) (hEb : AllEntries b) (hk : a.map Val.key = b.map Val.key)
    (hp : (a.map Val.key).Pairwise (· ≠ ·)) (h : ∀ q, mapGet q a = mapGet q b) : a = b := by
  induction a generalizing b with
  | nil => cases b with
    | nil => rfl
    | cons y b => simp at hk
  | cons x a ih =>
    cases b with
    | nil => simp at hk
    | cons y b =>
      obtain ⟨k, v, rfl⟩ := hEa x (by simp)
      obtain ⟨k', v', rfl⟩ := hEb y (by simp)
      simp only [List.map_cons, Val.key, List.cons.injEq] at hk
      obtain ⟨rfl, hk⟩ := hk
      simp only [List.map_cons, Val.key, List.pairwise_cons] at hp
      have h0 := h k
      simp only [mapGet, if_true, Option.some.injEq] at h0
      subst h0
      congr 1
      refine ih (fun w hw => hEa w (by simp [hw])) (fun w hw => hEb w (by simp [hw])) hk hp.2 fun q => ?_
      by_cases hq : k = q
      · subst hq
        have hno : ∀ c : List Val, (∀ z ∈ c.map Val.key, k ≠ z) → AllEntries c → mapGet k c = none := by
          intro c
          induction c with
          | nil => intros; rfl
          | cons z c ih =>
            intro hz hc
            obtain ⟨k2, v2, rfl⟩ := hc z (by simp)
            have : k2 ≠ k := fun e => hz k2 (by simp [Val.key]) e.symm
            simp only [mapGet, this, if_false]
            exact ih (fun w hw => hz w (by simp only [List.map_cons, List.mem_cons]; exact .inr hw)) fun w hw => hc w (by simp [hw])
        rw [hno a hp.1 fun w hw => hEa w (by simp [hw]), hno b (by rw [← hk]; exact hp.1) fun w hw => hEb w (by simp [hw])]
      · have := h q
        simpa only [mapGet, hq, if_false] using this

theorem hmap_fold_unique {es r : List Val} (hE : AllEntries es) (h : LastWins es r)
    (hr : r.map Val.key = firsts (es.map Val.key)) : es.foldl (collInsert env .hmap) [] = r := by
  obtain ⟨h1, _⟩ := hmap_fold_pairwise hk es [] hE (by simp [AllEntries]) (by simp)
  have hkeys : (es.foldl (collInsert env .hmap) []).map Val.key = firsts (es.map Val.key) := by
    rw [hmap_fold_keys _ _ hE (by simp [AllEntries])]
    exact hset_fold_firsts hk _
  refine entries_ext h1 h.1 (hkeys.trans hr.symm) (by rw [hkeys]; exact firsts_pairwise _) fun q => ?_
  rw [hmap_fold_get hk _ _ _ hE (by simp [AllEntries]), h.2]
  cases lastVal q es <;> simp [mapGet]

omit hk in
theorem lastVal_mapGet {es : List Val} (hE : AllEntries es) (hp : es.Pairwise (fun a b => a.key ≠ b.key)) (k : Val) :
    mapGet k es = lastVal k es := by
  induction es with
  | nil => rfl
  | cons y es ih =>
    obtain ⟨a, b, rfl⟩ := hE y (by simp)
    have hE' : AllEntries es := fun w hw => hE w (by simp [hw])
    rw [List.pairwise_cons] at hp
    simp only [mapGet, lastVal, ← ih hE' hp.2]
    by_cases h : a = k
    · subst h
      have hno : mapGet a es = none := by
        have : ∀ c : List Val, (∀ z ∈ c, a ≠ z.key) → AllEntries c → mapGet a c = none := by
          intro c
          induction c with
          | nil => intros; rfl
          | cons z c ih =>
            intro hz hc
            obtain ⟨k2, v2, rfl⟩ := hc z (by simp)
            have : k2 ≠ a := fun e => hz (.entry k2 v2) (by simp) e.symm
            simp only [mapGet, this, if_false]
            exact ih (fun w hw => hz w (by simp [hw])) fun w hw => hc w (by simp [hw])
        exact this es (fun z hz => hp.1 z hz) hE'
      simp [hno]
    · simp only [h, if_false]
      cases mapGet k es <;> rfl

omit hk in
theorem lastWins_self {es : List Val} (hE : AllEntries es) (hp : es.Pairwise (fun a b => a.key ≠ b.key)) : LastWins es es :=
  ⟨hE, lastVal_mapGet hE hp⟩

end NS
