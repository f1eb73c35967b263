import Verif.Lemmas.Bin
/-! Insertion into sets and maps. -/
set_option linter.unusedSimpArgs false
namespace NS
variable {env : Env}

theorem hmapInsert_entries {m : List Val} {k v : Val} (h : AllEntries m) :
    AllEntries (hmapInsert env m k v) := by
  induction m with
  | nil => intro w hw; simp [hmapInsert] at hw; exact ⟨k, v, hw⟩
  | cons y m ih =>
    obtain ⟨a, b, rfl⟩ := h y (by simp)
    have hm : AllEntries m := fun w hw => h w (by simp [hw])
    simp only [hmapInsert]
    split
    · intro w hw
      rcases List.mem_cons.1 hw with rfl | hw
      · exact ⟨_, _, rfl⟩
      · exact hm w hw
    · intro w hw
      rcases List.mem_cons.1 hw with rfl | hw
      · exact ⟨_, _, rfl⟩
      · exact ih hm w hw

theorem bmapInsert_entries {m : List Val} {k v : Val} (h : AllEntries m) :
    AllEntries (bmapInsert env m k v) := by
  induction m with
  | nil => intro w hw; simp [bmapInsert] at hw; exact ⟨k, v, hw⟩
  | cons y m ih =>
    obtain ⟨a, b, rfl⟩ := h y (by simp)
    have hm : AllEntries m := fun w hw => h w (by simp [hw])
    simp only [bmapInsert]
    split
    · intro w hw
      rcases List.mem_cons.1 hw with rfl | hw
      · exact ⟨_, _, rfl⟩
      · exact h w hw
    · intro w hw
      rcases List.mem_cons.1 hw with rfl | hw
      · exact ⟨_, _, rfl⟩
      · exact hm w hw
    · intro w hw
      rcases List.mem_cons.1 hw with rfl | hw
      · exact ⟨_, _, rfl⟩
      · exact ih hm w hw

/-- Keys after an insertion. -/
theorem hmapInsert_key {m : List Val} {k v w : Val} (hE : AllEntries m)
    (h : w ∈ hmapInsert env m k v) : w = .entry k v ∨ w ∈ m ∨ ∃ a b, .entry a b ∈ m ∧ env.keyEq k a ∧ w = .entry a v := by
  induction m with
  | nil => simp [hmapInsert] at h; exact .inl h
  | cons y m ih =>
    obtain ⟨a, b, rfl⟩ := hE y (by simp)
    have hm : AllEntries m := fun w hw => hE w (by simp [hw])
    simp only [hmapInsert] at h
    split at h
    · rename_i hk
      rcases List.mem_cons.1 h with rfl | h
      · exact .inr (.inr ⟨a, b, by simp, hk, rfl⟩)
      · exact .inr (.inl (by simp [h]))
    · rcases List.mem_cons.1 h with rfl | h
      · exact .inr (.inl (by simp))
      · rcases ih hm h with h | h | ⟨a', b', h1, h2, h3⟩
        · exact .inl h
        · exact .inr (.inl (by simp [h]))
        · exact .inr (.inr ⟨a', b', by simp [h1], h2, h3⟩)

theorem bmapInsert_key {m : List Val} {k v w : Val} (hE : AllEntries m)
    (h : w ∈ bmapInsert env m k v) :
    w = .entry k v ∨ w ∈ m ∨ ∃ a b, .entry a b ∈ m ∧ env.cmp k a = .eq ∧ w = .entry a v := by
  induction m with
  | nil => simp [bmapInsert] at h; exact .inl h
  | cons y m ih =>
    obtain ⟨a, b, rfl⟩ := hE y (by simp)
    have hm : AllEntries m := fun w hw => hE w (by simp [hw])
    simp only [bmapInsert] at h
    split at h
    · rcases List.mem_cons.1 h with rfl | h
      · exact .inl rfl
      · exact .inr (.inl h)
    · rename_i hk
      rcases List.mem_cons.1 h with rfl | h
      · exact .inr (.inr ⟨a, b, by simp, hk, rfl⟩)
      · exact .inr (.inl (by simp [h]))
    · rcases List.mem_cons.1 h with rfl | h
      · exact .inr (.inl (by simp))
      · rcases ih hm h with h | h | ⟨a', b', h1, h2, h3⟩
        · exact .inl h
        · exact .inr (.inl (by simp [h]))
        · exact .inr (.inr ⟨a', b', by simp [h1], h2, h3⟩)

theorem bsetInsert_mem {s : List Val} {x w : Val} (h : w ∈ bsetInsert env s x) : w = x ∨ w ∈ s := by
  induction s with
  | nil => simp [bsetInsert] at h; exact .inl h
  | cons y s ih =>
    simp only [bsetInsert] at h
    split at h
    · rcases List.mem_cons.1 h with rfl | h
      · exact .inl rfl
      · exact .inr h
    · exact .inr h
    · rcases List.mem_cons.1 h with rfl | h
      · exact .inr (by simp)
      · rcases ih h with h | h
        · exact .inl h
        · exact .inr (by simp [h])

theorem hsetInsert_mem {s : List Val} {x w : Val} (h : w ∈ hsetInsert env s x) : w = x ∨ w ∈ s := by
  unfold hsetInsert at h
  split at h
  · exact .inr h
  · rw [List.mem_append, List.mem_singleton] at h
    exact h.symm

theorem coll_length (c : Coll) (s : List Val) (x : Val) : (collInsert env c s x).length ≤ s.length + 1 := by
  cases c with
  | hset => simp only [collInsert, hsetInsert]; split <;> simp
  | bset =>
    simp only [collInsert]
    induction s with
    | nil => simp [bsetInsert]
    | cons y s ih => simp only [bsetInsert]; split <;> simp <;> omega
  | hmap =>
    cases x with
    | entry k v =>
      simp only [collInsert]
      induction s with
      | nil => simp [hmapInsert]
      | cons y s ih =>
        cases y <;> simp only [hmapInsert] <;> (try split) <;> simp <;> omega
    | _ => simp [collInsert]
  | bmap =>
    cases x with
    | entry k v =>
      simp only [collInsert]
      induction s with
      | nil => simp [bmapInsert]
      | cons y s ih =>
        cases y <;> simp only [bmapInsert] <;> (try split) <;> simp <;> omega
    | _ => simp [collInsert]

theorem coll_fold_length (c : Coll) (vs acc : List Val) :
    (vs.foldl (collInsert env c) acc).length ≤ acc.length + vs.length := by
  induction vs generalizing acc with
  | nil => simp
  | cons v vs ih =>
    have h1 := ih (collInsert env c acc v)
    have h2 := coll_length (env := env) c acc v
    simp only [List.foldl_cons, List.length_cons]; omega

section lawful
variable (hk : LawfulKeys env)
include hk

theorem cmp_gt_iff (a b : Val) : env.cmp a b = .gt ↔ env.cmp b a = .lt :=
  (hk.lt_iff_gt b a).symm

theorem cmp_irrefl (a : Val) : env.cmp a a ≠ .lt := by
  rw [(hk.eq_iff a a).2 rfl]; simp

theorem hsetInsert_pairwise {s : List Val} {x : Val} (h : s.Pairwise (· ≠ ·)) :
    (hsetInsert env s x).Pairwise (· ≠ ·) := by
  unfold hsetInsert
  split
  · exact h
  · rename_i hn
    rw [List.pairwise_append]
    refine ⟨h, by simp, ?_⟩
    intro a ha b hb
    rw [List.mem_singleton] at hb
    subst hb
    rintro rfl
    apply hn
    rw [List.any_eq_true]
    exact ⟨a, ha, (hk.keyEq_iff _ _).2 rfl⟩

theorem bsetInsert_pairwise {s : List Val} {x : Val}
    (h : s.Pairwise (fun a b => env.cmp a b = .lt)) :
    (bsetInsert env s x).Pairwise (fun a b => env.cmp a b = .lt) := by
  induction s with
  | nil => simp [bsetInsert]
  | cons y s ih =>
    rw [List.pairwise_cons] at h
    simp only [bsetInsert]
    split
    · rename_i hlt
      rw [List.pairwise_cons, List.pairwise_cons]
      refine ⟨fun a ha => ?_, h⟩
      rcases List.mem_cons.1 ha with rfl | ha
      · exact hlt
      · exact hk.lt_trans _ _ _ hlt (h.1 a ha)
    · exact List.pairwise_cons.2 h
    · rename_i hgt
      rw [List.pairwise_cons]
      refine ⟨fun a ha => ?_, ih h.2⟩
      rcases bsetInsert_mem ha with rfl | ha
      · exact (cmp_gt_iff hk _ _).1 hgt
      · exact h.1 a ha

theorem hmapInsert_pairwise {m : List Val} {k v : Val} (hE : AllEntries m)
    (h : m.Pairwise (fun a b => a.key ≠ b.key)) :
    (hmapInsert env m k v).Pairwise (fun a b => a.key ≠ b.key) := by
  induction m with
  | nil => simp [hmapInsert]
  | cons y m ih =>
    obtain ⟨a, b, rfl⟩ := hE y (by simp)
    have hm : AllEntries m := fun w hw => hE w (by simp [hw])
    rw [List.pairwise_cons] at h
    simp only [hmapInsert]
    split
    · rw [List.pairwise_cons]; exact ⟨fun w hw => h.1 w hw, h.2⟩
    · rename_i hne
      rw [List.pairwise_cons]
      refine ⟨fun w hw => ?_, ih hm h.2⟩
      rcases hmapInsert_key hm hw with rfl | hw | ⟨a', b', h1, h2, rfl⟩
      · intro he; exact hne ((hk.keyEq_iff _ _).2 (by simpa [Val.key] using he.symm))
      · exact h.1 w hw
      · have := h.1 _ h1
        simpa [Val.key] using this

theorem bmapInsert_pairwise {m : List Val} {k v : Val} (hE : AllEntries m)
    (h : m.Pairwise (fun a b => env.cmp a.key b.key = .lt)) :
    (bmapInsert env m k v).Pairwise (fun a b => env.cmp a.key b.key = .lt) := by
  induction m with
  | nil => simp [bmapInsert]
  | cons y m ih =>
    obtain ⟨a, b, rfl⟩ := hE y (by simp)
    have hm : AllEntries m := fun w hw => hE w (by simp [hw])
    rw [List.pairwise_cons] at h
    simp only [bmapInsert]
    split
    · rename_i hlt
      rw [List.pairwise_cons, List.pairwise_cons]
      refine ⟨fun w hw => ?_, h⟩
      rcases List.mem_cons.1 hw with rfl | hw
      · exact hlt
      · exact hk.lt_trans _ _ _ hlt (by simpa [Val.key] using h.1 w hw)
    · rw [List.pairwise_cons]
      exact ⟨fun w hw => h.1 w hw, h.2⟩
    · rename_i hgt
      rw [List.pairwise_cons]
      refine ⟨fun w hw => ?_, ih hm h.2⟩
      rcases bmapInsert_key hm hw with rfl | hw | ⟨a', b', h1, h2, rfl⟩
      · exact (cmp_gt_iff hk _ _).1 hgt
      · exact h.1 w hw
      · have := h.1 _ h1
        simpa [Val.key] using this

theorem mapGet_hmapInsert {m : List Val} {k v q : Val} (hE : AllEntries m) :
    mapGet q (hmapInsert env m k v) = open Classical in if k = q then some v else mapGet q m := by
  induction m with
  | nil => simp [hmapInsert, mapGet]
  | cons y m ih =>
    obtain ⟨a, b, rfl⟩ := hE y (by simp)
    have hm : AllEntries m := fun w hw => hE w (by simp [hw])
    simp only [hmapInsert]
    split
    · rename_i h
      have := (hk.keyEq_iff _ _).1 h
      subst this
      simp only [mapGet]
      split <;> simp_all
    · rename_i h
      have hne : k ≠ a := fun e => h ((hk.keyEq_iff _ _).2 e)
      simp only [mapGet, ih hm]
      by_cases h1 : a = q <;> by_cases h2 : k = q <;> simp_all

theorem mapGet_bmapInsert {m : List Val} {k v q : Val} (hE : AllEntries m) :
    mapGet q (bmapInsert env m k v) = open Classical in if k = q then some v else mapGet q m := by
  induction m with
  | nil => simp [bmapInsert, mapGet]
  | cons y m ih =>
    obtain ⟨a, b, rfl⟩ := hE y (by simp)
    have hm : AllEntries m := fun w hw => hE w (by simp [hw])
    simp only [bmapInsert]
    split
    · simp only [mapGet]
    · rename_i h
      have := (hk.eq_iff _ _).1 h
      subst this
      simp only [mapGet]
      split <;> simp_all
    · rename_i h
      have hne : k ≠ a := by
        rintro rfl
        rw [(hk.eq_iff _ _).2 rfl] at h; simp at h
      simp only [mapGet, ih hm]
      by_cases h1 : a = q <;> by_cases h2 : k = q <;> simp_all

/-- Rebuilding a map by insertions: for each key the last entry wins. -/
theorem hmap_fold_get (es acc : List Val) (q : Val) (hE : AllEntries es) (hA : AllEntries acc) :
    mapGet q (es.foldl (collInsert env .hmap) acc) =
      match lastVal q es with | some v => some v | none => mapGet q acc := by
  induction es generalizing acc with
  | nil => simp [lastVal]
  | cons y es ih =>
    obtain ⟨a, b, rfl⟩ := hE y (by simp)
    simp only [List.foldl_cons, collInsert]
    rw [ih _ (fun w hw => hE w (by simp [hw])) (hmapInsert_entries hA), mapGet_hmapInsert hk hA]
    simp only [lastVal]
    cases lastVal q es with
    | some w => simp
    | none => by_cases h : a = q <;> simp [h]

theorem bmap_fold_get (es acc : List Val) (q : Val) (hE : AllEntries es) (hA : AllEntries acc) :
    mapGet q (es.foldl (collInsert env .bmap) acc) =
      match lastVal q es with | some v => some v | none => mapGet q acc := by
  induction es generalizing acc with
  | nil => simp [lastVal]
  | cons y es ih =>
    obtain ⟨a, b, rfl⟩ := hE y (by simp)
    simp only [List.foldl_cons, collInsert]
    rw [ih _ (fun w hw => hE w (by simp [hw])) (bmapInsert_entries hA), mapGet_bmapInsert hk hA]
    simp only [lastVal]
    cases lastVal q es with
    | some w => simp
    | none => by_cases h : a = q <;> simp [h]

theorem bset_mem_insert {s : List Val} {x q : Val} : q ∈ bsetInsert env s x ↔ q = x ∨ q ∈ s := by
  refine ⟨bsetInsert_mem, fun h => ?_⟩
  induction s with
  | nil => simpa [bsetInsert] using h
  | cons y s ih =>
    simp only [bsetInsert]
    split
    · simpa using h
    · rename_i he
      have := (hk.eq_iff _ _).1 he
      subst this
      rcases h with rfl | h
      · simp
      · exact h
    · rcases h with rfl | h
      · exact List.mem_cons.2 (.inr (ih (.inl rfl)))
      · rcases List.mem_cons.1 h with rfl | h
        · simp
        · exact List.mem_cons.2 (.inr (ih (.inr h)))

theorem hset_mem_insert {s : List Val} {x q : Val} : q ∈ hsetInsert env s x ↔ q = x ∨ q ∈ s := by
  refine ⟨hsetInsert_mem, fun h => ?_⟩
  unfold hsetInsert
  split
  · rename_i hx
    rcases h with rfl | h
    · rw [List.any_eq_true] at hx
      obtain ⟨a, ha, hq⟩ := hx
      rwa [(hk.keyEq_iff _ _).1 hq]
    · exact h
  · rw [List.mem_append, List.mem_singleton]; exact h.symm

theorem bset_fold_mem (vs acc : List Val) (q : Val) :
    q ∈ vs.foldl (collInsert env .bset) acc ↔ q ∈ acc ∨ q ∈ vs := by
  induction vs generalizing acc with
  | nil => simp
  | cons v vs ih =>
    simp only [List.foldl_cons, collInsert]
    rw [ih, bset_mem_insert hk, List.mem_cons]
    constructor
    · rintro ((h | h) | h) <;> simp [h]
    · rintro (h | h | h) <;> simp [h]

theorem hset_fold_mem (vs acc : List Val) (q : Val) :
    q ∈ vs.foldl (collInsert env .hset) acc ↔ q ∈ acc ∨ q ∈ vs := by
  induction vs generalizing acc with
  | nil => simp
  | cons v vs ih =>
    simp only [List.foldl_cons, collInsert]
    rw [ih, hset_mem_insert hk, List.mem_cons]
    constructor
    · rintro ((h | h) | h) <;> simp [h]
    · rintro (h | h | h) <;> simp [h]

theorem bset_fold_pairwise (vs acc : List Val)
    (h : acc.Pairwise (fun a b => env.cmp a b = .lt)) :
    (vs.foldl (collInsert env .bset) acc).Pairwise (fun a b => env.cmp a b = .lt) := by
  induction vs generalizing acc with
  | nil => exact h
  | cons v vs ih => exact ih _ (bsetInsert_pairwise hk h)

theorem hset_fold_pairwise (vs acc : List Val) (h : acc.Pairwise (· ≠ ·)) :
    (vs.foldl (collInsert env .hset) acc).Pairwise (· ≠ ·) := by
  induction vs generalizing acc with
  | nil => exact h
  | cons v vs ih => exact ih _ (hsetInsert_pairwise hk h)

theorem bmap_fold_pairwise (vs acc : List Val) (hE : AllEntries vs) (hA : AllEntries acc)
    (h : acc.Pairwise (fun a b => env.cmp a.key b.key = .lt)) :
    AllEntries (vs.foldl (collInsert env .bmap) acc) ∧
    (vs.foldl (collInsert env .bmap) acc).Pairwise (fun a b => env.cmp a.key b.key = .lt) := by
  induction vs generalizing acc with
  | nil => exact ⟨hA, h⟩
  | cons v vs ih =>
    obtain ⟨k, x, rfl⟩ := hE v (by simp)
    exact ih _ (fun w hw => hE w (by simp [hw])) (bmapInsert_entries hA) (bmapInsert_pairwise hk hA h)

theorem hmap_fold_pairwise (vs acc : List Val) (hE : AllEntries vs) (hA : AllEntries acc)
    (h : acc.Pairwise (fun a b => a.key ≠ b.key)) :
    AllEntries (vs.foldl (collInsert env .hmap) acc) ∧
    (vs.foldl (collInsert env .hmap) acc).Pairwise (fun a b => a.key ≠ b.key) := by
  induction vs generalizing acc with
  | nil => exact ⟨hA, h⟩
  | cons v vs ih =>
    obtain ⟨k, x, rfl⟩ := hE v (by simp)
    exact ih _ (fun w hw => hE w (by simp [hw])) (hmapInsert_entries hA) (hmapInsert_pairwise hk hA h)

/-- Strictly ascending lists are determined by their members. -/
theorem sorted_ext {a b : List Val} (ha : a.Pairwise (fun x y => env.cmp x y = .lt))
    (hb : b.Pairwise (fun x y => env.cmp x y = .lt)) (h : ∀ q, q ∈ a ↔ q ∈ b) : a = b := by
  induction a generalizing b with
  | nil =>
    cases b with
    | nil => rfl
    | cons y b => exact absurd ((h y).2 (by simp)) (by simp)
  | cons x a ih =>
    cases b with
    | nil => exact absurd ((h x).1 (by simp)) (by simp)
    | cons y b =>
      rw [List.pairwise_cons] at ha hb
      have hxy : x = y := by
        rcases List.mem_cons.1 ((h x).1 (by simp)) with h1 | h1
        · exact h1
        · rcases List.mem_cons.1 ((h y).2 (by simp)) with h2 | h2
          · exact h2.symm
          · exact absurd (hk.lt_trans _ _ _ (ha.1 y h2) (hb.1 x h1)) (cmp_irrefl hk x)
      subst hxy
      rw [ih ha.2 hb.2]
      intro q
      have hq := h q
      simp only [List.mem_cons] at hq
      constructor
      · intro hqa
        rcases hq.1 (.inr hqa) with rfl | h'
        · exact absurd (ha.1 q hqa) (cmp_irrefl hk q)
        · exact h'
      · intro hqb
        rcases hq.2 (.inr hqb) with rfl | h'
        · exact absurd (hb.1 q hqb) (cmp_irrefl hk q)
        · exact h'

theorem mapGet_mem {m : List Val} (hE : AllEntries m)
    (h : m.Pairwise (fun a b => env.cmp a.key b.key = .lt)) (k v : Val) :
    mapGet k m = some v ↔ .entry k v ∈ m := by
  induction m with
  | nil => simp [mapGet]
  | cons y m ih =>
    obtain ⟨a, b, rfl⟩ := hE y (by simp)
    have hm : AllEntries m := fun w hw => hE w (by simp [hw])
    rw [List.pairwise_cons] at h
    simp only [mapGet]
    split
    · rename_i he
      subst he
      simp only [List.mem_cons, Val.entry.injEq, Option.some.injEq, true_and]
      constructor
      · intro e; exact .inl e.symm
      · rintro (e | e)
        · exact e.symm
        · exact absurd (h.1 _ e) (by simpa [Val.key] using cmp_irrefl hk a)
    · rename_i hne
      rw [ih hm h.2, List.mem_cons]
      constructor
      · exact .inr
      · rintro (e | e)
        · simp only [Val.entry.injEq] at e; exact absurd e.1.symm hne
        · exact e

/-- Strictly ascending maps are determined by their lookups. -/
theorem sorted_map_ext {a b : List Val} (hEa : AllEntries a) (hEb : AllEntries b)
    (ha : a.Pairwise (fun x y => env.cmp x.key y.key = .lt))
    (hb : b.Pairwise (fun x y => env.cmp x.key y.key = .lt))
    (h : ∀ q, mapGet q a = mapGet q b) : a = b := by
  have hmem : ∀ q, q ∈ a ↔ q ∈ b := by
    intro q
    constructor
    · intro hq
      obtain ⟨k, v, rfl⟩ := hEa q hq
      exact (mapGet_mem hk hEb hb k v).1 (by rw [← h]; exact (mapGet_mem hk hEa ha k v).2 hq)
    · intro hq
      obtain ⟨k, v, rfl⟩ := hEb q hq
      exact (mapGet_mem hk hEa ha k v).1 (by rw [h]; exact (mapGet_mem hk hEb hb k v).2 hq)
  clear h hEa hEb
  induction a generalizing b with
  | nil =>
    cases b with
    | nil => rfl
    | cons y b => exact absurd ((hmem y).2 (by simp)) (by simp)
  | cons x a ih =>
    cases b with
    | nil => exact absurd ((hmem x).1 (by simp)) (by simp)
    | cons y b =>
      rw [List.pairwise_cons] at ha hb
      have hxy : x = y := by
        rcases List.mem_cons.1 ((hmem x).1 (by simp)) with h1 | h1
        · exact h1
        · rcases List.mem_cons.1 ((hmem y).2 (by simp)) with h2 | h2
          · exact h2.symm
          · exact absurd (hk.lt_trans _ _ _ (ha.1 y h2) (hb.1 x h1)) (cmp_irrefl hk x.key)
      subst hxy
      rw [ih ha.2 hb.2]
      intro q
      have hq := hmem q
      simp only [List.mem_cons] at hq
      constructor
      · intro hqa
        rcases hq.1 (.inr hqa) with rfl | h'
        · exact absurd (ha.1 q hqa) (cmp_irrefl hk q.key)
        · exact h'
      · intro hqb
        rcases hq.2 (.inr hqb) with rfl | h'
        · exact absurd (hb.1 q hqb) (cmp_irrefl hk q.key)
        · exact h'

end lawful

end NS
