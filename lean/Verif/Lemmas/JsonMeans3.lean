import Verif.Lemmas.JsonMeans2
/-! `JsonMeans` and the reference decoder agree. -/
namespace NS
variable {env : Env} {fl : FloatOps}

theorem Ev.unshift {P : Nat → Prop} (h : Ev fun n => P (n + 1)) : Ev P := by
  obtain ⟨a, h⟩ := h
  refine ⟨a + 1, fun n hn => ?_⟩
  have : P (n - 1 + 1) := h (n - 1) (by omega)
  rwa [show n - 1 + 1 = n by omega] at this

theorem Spellable.num {t : Num} (h : Spellable fl (JTree.num t).lexemes) :
    (∀ n, t = .nat n → n ≤ u64Max) ∧ (∀ i, t = .neg i → i ≤ 0) := by
  obtain ⟨s, hs⟩ := h (.num t) (by simp [JTree.lexemes])
  cases hs with
  | num h => exact h.bounds

theorem allEntries_map {α : Type} (ps : List α) (f g : α → Val) : AllEntries (ps.map fun p => .entry (f p) (g p)) := by
  intro e he
  obtain ⟨p, _, rfl⟩ := List.mem_map.1 he
  exact ⟨_, _, rfl⟩

theorem decSeq_ok {step : List Val → JTree → Dec (List Val)} {J : JTree} {v : Val} : decSeq step (some J) = .ok v ↔
    ∃ xs tr vs, J = .arr xs tr ∧ foldD step [] xs = .ok vs ∧ v = .seq vs := by
  cases J with
  | arr xs tr =>
    simp only [decSeq]
    rw [Dec.bind_eq_ok]
    constructor
    · rintro ⟨vs, h1, h2⟩; injection h2 with h2; exact ⟨xs, tr, vs, rfl, h1, h2.symm⟩
    · rintro ⟨xs', tr', vs, e, h1, rfl⟩; cases e; exact ⟨vs, h1, rfl⟩
  | _ => simp [decSeq]

theorem decMap_ok {step : List Val → JTree × JTree → Dec (List Val)} {J : JTree} {v : Val} : decMap step (some J) = .ok v ↔
    ∃ ms tr vs, J = .obj ms tr ∧ foldD step [] ms = .ok vs ∧ v = .seq vs := by
  cases J with
  | obj xs tr =>
    simp only [decMap]
    rw [Dec.bind_eq_ok]
    constructor
    · rintro ⟨vs, h1, h2⟩; injection h2 with h2; exact ⟨xs, tr, vs, rfl, h1, h2.symm⟩
    · rintro ⟨xs', tr', vs, e, h1, rfl⟩; cases e; exact ⟨vs, h1, rfl⟩
  | _ => simp [decMap]

theorem decNamed_obj {D : Ty → Option JTree → Dec Val} {cd fs J vs} (h : decNamed D cd fs (some J) = .ok vs) : ∃ ms tr, J = .obj ms tr := by
  cases J with
  | obj ms tr => exact ⟨ms, tr, rfl⟩
  | _ => cases h

theorem Dec.ok_bind {α β : Type} {d : Dec α} {f : α → β} {b : β} (h : (d.bind fun a => .ok (f a)) = .ok b) :
    ∃ a, d = .ok a ∧ b = f a := by
  obtain ⟨a, h1, h2⟩ := Dec.bind_eq_ok.1 h
  injection h2 with h2
  exact ⟨a, h1, h2.symm⟩

theorem setOf_fold (hk : LawfulKeys env) (vs : List Val) : SetOf env vs (vs.foldl (collInsert env .bset) []) := by
  refine ⟨bset_fold_pairwise hk vs [] (by simp), fun q => ?_⟩
  rw [bset_fold_mem hk]; simp

theorem lastWins_hfold (hk : LawfulKeys env) {es : List Val} (hE : AllEntries es) :
    LastWins es (es.foldl (collInsert env .hmap) []) ∧
      (es.foldl (collInsert env .hmap) []).map Val.key = firsts (es.map Val.key) := by
  obtain ⟨h1, _⟩ := hmap_fold_pairwise hk es [] hE (by simp [AllEntries]) (by simp)
  refine ⟨⟨h1, fun q => ?_⟩, ?_⟩
  · rw [hmap_fold_get hk _ _ _ hE (by simp [AllEntries])]
    cases lastVal q es <;> simp [mapGet]
  · rw [hmap_fold_keys _ _ hE (by simp [AllEntries])]
    exact hset_fold_firsts hk _

theorem lastWins_bfold (hk : LawfulKeys env) {es : List Val} (hE : AllEntries es) :
    LastWins es (es.foldl (collInsert env .bmap) []) ∧
      (es.foldl (collInsert env .bmap) []).Pairwise (fun a b => env.cmp a.key b.key = .lt) := by
  obtain ⟨h1, h2⟩ := bmap_fold_pairwise hk es [] hE (by simp [AllEntries]) (by simp)
  refine ⟨⟨h1, fun q => ?_⟩, h2⟩
  rw [bmap_fold_get hk _ _ _ hE (by simp [AllEntries])]
  cases lastVal q es <;> simp [mapGet]

theorem keys_map (ps : List ((JTree × Val) × (JTree × Val))) :
    (ps.map fun p => Val.entry p.1.2 p.2.2).map Val.key = ps.map fun p => p.1.2 := by
  rw [List.map_map]; rfl

section forward
variable (hk : LawfulKeys env) (hd : DistinctProg env) {n : Nat}
  (ih : ∀ t J v, Spellable fl J.lexemes → decode env fl n t (some J) = .ok v → JsonMeans env fl t J v)
include ih

theorem items_means {t : Ty} {xs : List JTree} {tr : Bool} {r : List Val} {ins : List Val → Val → List Val}
    (hx : Spellable fl (JTree.arr xs tr).lexemes)
    (h : foldD (fun acc x => (decode env fl n t (some x)).bind fun v => .ok (ins acc v)) [] xs = .ok r) :
    ∃ ps : List (JTree × Val), ps.map (·.1) = xs ∧ (∀ p ∈ ps, JsonMeans env fl t p.1 p.2) ∧
      r = (ps.map (·.2)).foldl ins [] := by
  obtain ⟨ps, h1, h2, h3⟩ := (fold_items (d := fun x => decode env fl n t (some x)) xs [] r).1 h
  refine ⟨ps, h1, fun p hp => ih _ _ _ (hx.arr ?_) (h2 p hp), h3⟩
  rw [← h1]; exact List.mem_map_of_mem (f := Prod.fst) hp

theorem entries_means {k t : Ty} {ms : List (JTree × JTree)} {tr : Bool} {r : List Val} {ins : List Val → Val → List Val}
    (hx : Spellable fl (JTree.obj ms tr).lexemes)
    (h : foldD (fun acc m => (decode env fl n k (some m.1)).bind fun a =>
        (decode env fl n t (some m.2)).bind fun b => .ok (ins acc (.entry a b))) [] ms = .ok r) :
    ∃ ps : List ((JTree × Val) × (JTree × Val)), ps.map (fun p => (p.1.1, p.2.1)) = ms ∧
      (∀ p ∈ ps, JsonMeans env fl k p.1.1 p.1.2) ∧ (∀ p ∈ ps, JsonMeans env fl t p.2.1 p.2.2) ∧
      r = (ps.map fun p => Val.entry p.1.2 p.2.2).foldl ins [] := by
  obtain ⟨ps, h1, h2, h3, h4⟩ := (fold_entries (dk := fun x => decode env fl n k (some x))
    (dv := fun x => decode env fl n t (some x)) ms [] r).1 h
  have hm : ∀ p ∈ ps, (p.1.1, p.2.1) ∈ ms := fun p hp => by
    rw [← h1]; exact List.mem_map_of_mem (f := fun p : (JTree × Val) × (JTree × Val) => (p.1.1, p.2.1)) hp
  exact ⟨ps, h1, fun p hp => ih _ _ _ (hx.obj (hm p hp)).1 (h2 p hp), fun p hp => ih _ _ _ (hx.obj (hm p hp)).2 (h3 p hp), h4⟩

theorem tuple_means {ts : List Ty} {J : JTree} {vs : List Val} (hx : Spellable fl J.lexemes)
    (h : decTuple (decode env fl n) ts (some J) = .ok vs) :
    ∃ (ps : List (Ty × JTree × Val)) (tr : Bool), ps.map (·.1) = ts ∧ J = .arr (ps.map (·.2.1)) tr ∧ ps.map (·.2.2) = vs ∧
      ∀ p ∈ ps, JsonMeans env fl p.1 p.2.1 p.2.2 := by
  obtain ⟨ps, tr, h1, h2, h3, h4⟩ := (decTuple_ps ts J vs).1 h
  refine ⟨ps, tr, h1, h2, h3, fun p hp => ih _ _ _ ?_ (h4 p hp)⟩
  subst h2
  exact hx.arr (List.mem_map_of_mem (f := fun p : Ty × JTree × Val => p.2.1) hp)

theorem named_means {cd : Bool} {fs : List Field} (hdn : DistinctNames fs) {J : JTree} {vs : List Val} (hx : Spellable fl J.lexemes)
    (h : decNamed (decode env fl n) cd fs (some J) = .ok vs) :
    ∃ (ps : List JMember) (tr : Bool), J = .obj (ps.map fun p => (.str p.1, p.2.1)) tr ∧ JFieldsGet cd fs ps vs ∧
      ∀ p ∈ ps, ∀ f ∈ fs, f.skip = false → f.jsonName = p.1 → JsonMeans env fl f.readTy p.2.1 p.2.2 := by
  obtain ⟨ms, tr, rfl⟩ := decNamed_obj h
  obtain ⟨ps, rfl, h1, h2⟩ := (decNamed_ps hdn ms tr vs).1 h
  refine ⟨ps, tr, rfl, h1, fun p hp f hf hs hn => ih _ _ _ ?_ (h2 p hp f hf hs hn)⟩
  exact (hx.obj (List.mem_map_of_mem (f := fun p : JMember => (JTree.str p.1, p.2.1)) hp)).2

include hk hd in
theorem means_step (t : Ty) (J : JTree) (v : Val) (hx : Spellable fl J.lexemes)
    (h : decode env fl (n + 1) t (some J) = .ok v) : JsonMeans env fl t J v := by
  cases t with
  | unit => cases J <;> simp only [decode, reduceCtorEq] at h <;> (injection h with h; subst h; exact .unit)
  | bool => cases J <;> simp only [decode, reduceCtorEq] at h <;> (injection h with h; subst h; exact .bool)
  | int k =>
    simp only [decode] at h
    cases hkt : k.textual with
    | false => rw [if_pos hkt] at h; cases h
    | true =>
      rw [if_neg (by simp [hkt])] at h
      cases J with
      | num t =>
        simp only at h
        cases hi : decInt k t with
        | none => rw [hi] at h; cases h
        | some i =>
          rw [hi] at h
          injection h with h
          subst h
          obtain ⟨h1, h2⟩ := hx.num
          rcases (decInt_iff hkt h1 h2 i).1 hi with ⟨g1, g2, g3⟩ | ⟨m, rfl, g2, g3, g4, g5, g6⟩
          · exact .int hkt g1 g2 g3
          · exact .intWrap hkt g2 g3 g4 g5 g6
      | _ => cases h
  | f32 =>
    cases J with
    | num t => injection h with h; subst h; cases t <;> exact .f32
    | _ => cases h
  | f64 =>
    cases J with
    | num t => injection h with h; subst h; cases t <;> exact .f64
    | _ => cases h
  | str => cases J <;> simp only [decode, reduceCtorEq] at h <;> (injection h with h; subst h; exact .str)
  | dur =>
    simp only [decode] at h
    obtain ⟨⟨a, b⟩, h1, rfl⟩ := Dec.ok_bind h
    obtain ⟨ms, tr, s, m, rfl, h2, h3, h4, rfl, rfl⟩ := (decDur_iff J a b).1 h1
    exact .dur h2 h3 h4
  | time =>
    by_cases hJ : J = .null
    · subst hJ; injection h with h; subst h; exact .epoch
    · have h' : ((decDur (some J)).bind fun d => if d.1 < 2 ^ 63 then Dec.ok (Val.time d.1 d.2) else .panic) = .ok v := by
        cases J with
        | null => exact absurd rfl hJ
        | _ => exact h
      obtain ⟨⟨a, b⟩, h1, h2⟩ := Dec.bind_eq_ok.1 h'
      split at h2
      · rename_i hlt
        injection h2 with h2; subst h2
        obtain ⟨ms, tr, s, m, rfl, h2, h3, h4, rfl, rfl⟩ := (decDur_iff J a b).1 h1
        exact .time h2 h3 hlt
      · cases h2
  | option t =>
    by_cases hJ : J = .null
    · subst hJ; injection h with h; subst h; exact .none
    · have h' : ((decode env fl n t (some J)).bind fun v => Dec.ok (Val.some v)) = .ok v := by
        cases J with
        | null => exact absurd rfl hJ
        | _ => exact h
      obtain ⟨w, h1, rfl⟩ := Dec.ok_bind h'
      exact .some hJ (ih _ _ _ hx h1)
  | vec t =>
    obtain ⟨xs, tr, vs, rfl, h1, rfl⟩ := decSeq_ok.1 h
    obtain ⟨ps, rfl, h3, rfl⟩ := items_means ih hx h1
    rw [foldl_snoc']
    exact .vec ps h3
  | linked t =>
    obtain ⟨xs, tr, vs, rfl, h1, rfl⟩ := decSeq_ok.1 h
    obtain ⟨ps, rfl, h3, rfl⟩ := items_means ih hx h1
    rw [foldl_snoc']
    exact .linked ps h3
  | hset t =>
    obtain ⟨xs, tr, vs, rfl, h1, rfl⟩ := decSeq_ok.1 h
    obtain ⟨ps, rfl, h3, rfl⟩ := items_means ih hx h1
    rw [hset_fold_firsts hk]
    exact .hset ps h3
  | bset t =>
    obtain ⟨xs, tr, vs, rfl, h1, rfl⟩ := decSeq_ok.1 h
    obtain ⟨ps, rfl, h3, rfl⟩ := items_means ih hx h1
    exact .bset ps h3 (setOf_fold hk _)
  | array t m =>
    obtain ⟨vs, h1, rfl⟩ := Dec.ok_bind h
    obtain ⟨ps, tr, h2, rfl, rfl, h3⟩ := tuple_means ih hx h1
    have hl : ps.length = m := by simpa using congrArg List.length h2
    have ht : ∀ p ∈ ps, p.1 = t := fun p hp => by
      have : p.1 ∈ ps.map (·.1) := List.mem_map_of_mem (f := Prod.fst) hp
      rw [h2] at this
      exact (List.mem_replicate.1 this).2
    have := JsonMeans.array (env := env) (fl := fl) (t := t) (n := m) (tr := tr) (ps.map (·.2)) (by simpa using hl) (by
      intro q hq
      obtain ⟨p, hp, rfl⟩ := List.mem_map.1 hq
      rw [← ht p hp]; exact h3 p hp)
    rw [List.map_map, List.map_map] at this
    exact this
  | pair a b =>
    obtain ⟨vs, h1, rfl⟩ := Dec.ok_bind h
    obtain ⟨ps, tr, h2, rfl, rfl, h3⟩ := tuple_means ih hx h1
    exact .pair ps h2 h3
  | triple a b c =>
    obtain ⟨vs, h1, rfl⟩ := Dec.ok_bind h
    obtain ⟨ps, tr, h2, rfl, rfl, h3⟩ := tuple_means ih hx h1
    exact .triple ps h2 h3
  | quad a b c d =>
    obtain ⟨vs, h1, rfl⟩ := Dec.ok_bind h
    obtain ⟨ps, tr, h2, rfl, rfl, h3⟩ := tuple_means ih hx h1
    exact .quad ps h2 h3
  | hmap k t =>
    obtain ⟨ms, tr, vs, rfl, h1, rfl⟩ := decMap_ok.1 h
    obtain ⟨ps, rfl, h3, h4, rfl⟩ := entries_means ih hx h1
    obtain ⟨g1, g2⟩ := lastWins_hfold hk (allEntries_map ps (fun p => p.1.2) fun p => p.2.2)
    exact .hmap ps h3 h4 g1 (by rw [← keys_map]; exact g2)
  | bmap k t =>
    obtain ⟨ms, tr, vs, rfl, h1, rfl⟩ := decMap_ok.1 h
    obtain ⟨ps, rfl, h3, h4, rfl⟩ := entries_means ih hx h1
    obtain ⟨g1, g2⟩ := lastWins_bfold hk (allEntries_map ps (fun p => p.1.2) fun p => p.2.2)
    exact .bmap ps h3 h4 g1 g2
  | box t =>
    obtain ⟨w, h1, rfl⟩ := Dec.ok_bind h
    exact .box (ih _ _ _ hx h1)
  | proxied i =>
    simp only [decode] at h
    cases hp : env.proxies[i]? with
    | none => rw [hp] at h; cases h
    | some px =>
      rw [hp] at h
      obtain ⟨w, h1, rfl⟩ := Dec.ok_bind h
      exact .proxied hp (ih _ _ _ hx h1)
  | named i =>
    simp only [decode] at h
    cases hdf : env.defs[i]? with
    | none => rw [hdf] at h; cases h
    | some df =>
      rw [hdf] at h
      cases df with
      | struct fs cd nul =>
        obtain ⟨vs, h1, rfl⟩ := Dec.ok_bind h
        obtain ⟨ps, tr, rfl, h2, h3⟩ := named_means ih (hd.fields i fs cd nul hdf) hx h1
        exact .struct ps hdf h2 h3
      | tuple ts trans =>
        simp only [decTupleStruct] at h
        match ts, trans, hdf, h with
        | [], trans, hdf, h =>
          simp only at h
          cases J with
          | obj ms tr =>
            cases ms with
            | nil => injection h with h; subst h; exact .noFields hdf
            | cons m ms => cases h
          | _ => cases h
        | [t], true, hdf, h =>
          obtain ⟨w, h1, rfl⟩ := Dec.ok_bind h
          exact .transparent hdf (ih _ _ _ hx h1)
        | [t], false, hdf, h =>
          cases J with
          | arr xs tr =>
            cases xs with
            | nil =>
              obtain ⟨_, _, h⟩ := Dec.bind_eq_ok.1 h
              cases h
            | cons x xs =>
              obtain ⟨w, h1, h2⟩ := Dec.bind_eq_ok.1 h
              split at h2
              · rename_i hc
                injection h2 with h2; subst h2
                obtain ⟨e1, rfl⟩ := hc
                have : xs = [] := List.isEmpty_iff.1 e1
                subst this
                exact .newtype hdf (ih _ _ _ (hx.arr (by simp)) h1)
              · cases h2
          | _ => cases h
        | a :: b :: ts, trans, hdf, h =>
          obtain ⟨vs, h1, rfl⟩ := Dec.ok_bind h
          obtain ⟨ps, tr, h2, rfl, rfl, h3⟩ := tuple_means ih hx h1
          refine .tupleStruct ps (by rw [h2]; exact hdf) ?_ h3
          have := congrArg List.length h2
          simp at this; omega
      | «enum» vars =>
        have hdv := hd.variants i vars hdf
        simp only at h
        unfold decEnum at h
        split at h
        · rename_i s e
          injection e with e; subst e
          split at h
          · rename_i j hj
            injection h with h; subst h
            obtain ⟨var, h1, h2, rfl⟩ := (findVariant_iff hdv).1 hj
            exact .variant hdf h1 (h2.1 rfl)
          · cases h
        · rename_i k K ms tr e
          injection e with e; subst e
          have hK := (hx.obj (List.mem_cons_self ..)).2
          have main : (match findVariant vars false k with
              | some j => (decShape (decode env fl n) K (vars.getD j { name := [], shape := .unit }).shape).bind fun vs =>
                  if ms.isEmpty = true ∧ tr = false then Dec.ok (Val.variant j vs) else .err
              | none => Dec.err) = .ok v := by
            split at h
            · exact h
            · exact h
            · cases h
          split at main
          · rename_i j hj
            obtain ⟨var, h1, h2, rfl⟩ := (findVariant_iff hdv).1 hj
            obtain ⟨vs, h3, h4⟩ := Dec.bind_eq_ok.1 main
            split at h4
            · rename_i hc
              injection h4 with h4; subst h4
              have : ms = [] := List.isEmpty_iff.1 hc.1
              subst this
              rw [hc.2]
              rw [List.getD_eq_getElem?_getD, h1] at h3
              simp only [Option.getD_some] at h3
              have hmem := List.mem_of_getElem? h1
              cases hsh : var.shape with
              | unit => rw [hsh] at h3; cases h3
              | tuple ts =>
                rw [hsh] at h3
                obtain ⟨ps, tr', g2, rfl, rfl, g3⟩ := tuple_means ih hK h3
                exact .tupleVariant ps hdf h1 (by rw [hsh, g2]) g3
              | named fs =>
                rw [hsh] at h3
                obtain ⟨ps, tr', rfl, g2, g3⟩ := named_means ih (hd.varFields i vars hdf var hmem fs hsh) hK h3
                exact .structVariant ps hdf h1 hsh g2 g3
            · cases h4
          · cases main
        · cases h

end forward

theorem means_of_decode (hk : LawfulKeys env) (hd : DistinctProg env) (n : Nat) : ∀ (t : Ty) (J : JTree) (v : Val),
    Spellable fl J.lexemes → decode env fl n t (some J) = .ok v → JsonMeans env fl t J v := by
  induction n with
  | zero => intro t J v _ h; cases h
  | succ n ih => exact fun t J v hx h => means_step hk hd ih t J v hx h


theorem Ev.items {t : Ty} {ps : List (JTree × Val)} (h : ∀ p ∈ ps, Ev fun n => decode env fl n t (some p.1) = .ok p.2)
    {ins : List Val → Val → List Val} {tr : Bool} :
    Ev fun n => decSeq (fun acc x => (decode env fl n t (some x)).bind fun v => .ok (ins acc v))
      (some (.arr (ps.map (·.1)) tr)) = .ok (.seq ((ps.map (·.2)).foldl ins [])) := by
  refine (Ev.list ps h).mono fun n hn => decSeq_ok.2 ⟨_, tr, _, rfl, ?_, rfl⟩
  exact (fold_items (d := fun x => decode env fl n t (some x)) _ [] _).2 ⟨ps, rfl, hn, rfl⟩

theorem Ev.entries {k t : Ty} {ps : List ((JTree × Val) × (JTree × Val))}
    (h1 : ∀ p ∈ ps, Ev fun n => decode env fl n k (some p.1.1) = .ok p.1.2)
    (h2 : ∀ p ∈ ps, Ev fun n => decode env fl n t (some p.2.1) = .ok p.2.2) {ins : List Val → Val → List Val} {tr : Bool} :
    Ev fun n => decMap (fun acc m => (decode env fl n k (some m.1)).bind fun a =>
        (decode env fl n t (some m.2)).bind fun b => .ok (ins acc (.entry a b)))
      (some (.obj (ps.map fun p => (p.1.1, p.2.1)) tr)) =
        .ok (.seq ((ps.map fun p => Val.entry p.1.2 p.2.2).foldl ins [])) := by
  refine ((Ev.list ps h1).and (Ev.list ps h2)).mono fun n hn => decMap_ok.2 ⟨_, tr, _, rfl, ?_, rfl⟩
  exact (fold_entries (dk := fun x => decode env fl n k (some x)) (dv := fun x => decode env fl n t (some x)) _ [] _).2
    ⟨ps, rfl, hn.1, hn.2, rfl⟩

theorem Ev.tuple {ps : List (Ty × JTree × Val)} (h : ∀ p ∈ ps, Ev fun n => decode env fl n p.1 (some p.2.1) = .ok p.2.2)
    {tr : Bool} {ts : List Ty} (ht : ps.map (·.1) = ts) :
    Ev fun n => decTuple (decode env fl n) ts (some (.arr (ps.map (·.2.1)) tr)) = .ok (ps.map (·.2.2)) :=
  (Ev.list ps h).mono fun n hn => (decTuple_ps _ _ _).2 ⟨ps, tr, ht, rfl, rfl, hn⟩

theorem Ev.named {ps : List JMember} {cd : Bool} {fs : List Field} (hdn : DistinctNames fs) {vs : List Val}
    (hg : JFieldsGet cd fs ps vs)
    (h : ∀ p ∈ ps, ∀ f ∈ fs, f.skip = false → f.jsonName = p.1 → Ev fun n => decode env fl n f.readTy (some p.2.1) = .ok p.2.2)
    {tr : Bool} :
    Ev fun n => decNamed (decode env fl n) cd fs (some (.obj (ps.map fun p => (.str p.1, p.2.1)) tr)) = .ok vs := by
  have : Ev fun n => ∀ p ∈ ps, ∀ f ∈ fs, f.skip = false → f.jsonName = p.1 →
      decode env fl n f.readTy (some p.2.1) = .ok p.2.2 := by
    refine Ev.list ps fun p hp => Ev.list fs fun f hf => ?_
    by_cases hc : f.skip = false ∧ f.jsonName = p.1
    · exact (h p hp f hf hc.1 hc.2).mono fun n hn _ _ => hn
    · exact .of fun n h1 h2 => absurd ⟨h1, h2⟩ hc
  exact this.mono fun n hn => (decNamed_ps hdn _ tr vs).2 ⟨ps, rfl, hg, hn⟩

theorem Ev.bind_ok {α β : Type} {d : Nat → Dec α} {a : α} {f : α → Dec β} {b : β} (h : Ev fun n => d n = .ok a) (hf : f a = .ok b) :
    Ev fun n => (d n).bind f = .ok b := h.mono fun n hn => Dec.bind_eq_ok.2 ⟨a, hn, hf⟩

theorem decode_of_means (hk : LawfulKeys env) (hd : DistinctProg env) {t : Ty} {J : JTree} {v : Val} (h : JsonMeans env fl t J v) :
    Spellable fl J.lexemes → Ev fun n => decode env fl n t (some J) = .ok v := by
  induction h with
  | unit => exact fun _ => .unshift (.of fun n => rfl)
  | bool => exact fun _ => .unshift (.of fun n => rfl)
  | @int k t i h1 h2 h3 h4 =>
    intro hx
    obtain ⟨g1, g2⟩ := hx.num
    have := (decInt_iff h1 g1 g2 i).2 (.inl ⟨h2, h3, h4⟩)
    exact .unshift (.of fun n => by simp only [decode, h1, this]; rfl)
  | @intWrap k i n h1 h2 h3 h4 h5 h6 =>
    intro hx
    obtain ⟨g1, g2⟩ := hx.num
    have := (decInt_iff h1 g1 g2 i).2 (.inr ⟨n, rfl, h2, h3, h4, h5, h6⟩)
    exact .unshift (.of fun n => by simp only [decode, h1, this]; rfl)
  | @f32 t => exact fun _ => .unshift (.of fun n => by cases t <;> rfl)
  | @f64 t => exact fun _ => .unshift (.of fun n => by cases t <;> rfl)
  | str => exact fun _ => .unshift (.of fun n => rfl)
  | @dur ms tr s m h1 h2 h3 =>
    intro _
    refine .unshift (.of fun n => ?_)
    exact Dec.bind_eq_ok.2 ⟨_, (decDur_iff _ _ _).2 ⟨ms, tr, s, m, rfl, h1, h2, h3, rfl, rfl⟩, rfl⟩
  | epoch => exact fun _ => .unshift (.of fun n => rfl)
  | @time ms tr s m h1 h2 h3 =>
    intro _
    refine .unshift (.of fun n => ?_)
    have hu : (u64Max : Nat) = 2 ^ 64 - 1 := by decide
    exact Dec.bind_eq_ok.2 ⟨_, (decDur_iff _ _ _).2 ⟨ms, tr, s, m, rfl, h1, h2, by omega, rfl, rfl⟩, if_pos h3⟩
  | none => exact fun _ => .unshift (.of fun n => rfl)
  | @some t J v hJ _ ih =>
    intro hx
    refine .unshift ((ih hx).mono fun n hn => ?_)
    have e : decode env fl (n + 1) (.option t) (some J) = (decode env fl n t (some J)).bind fun v => .ok (.some v) := by
      cases J with
      | null => exact absurd rfl hJ
      | _ => rfl
    rw [e, hn]; rfl
  | @vec t tr ps h ih =>
    intro hx
    have := Ev.items (tr := tr) (fun p hp => ih p hp (hx.arr (List.mem_map_of_mem (f := Prod.fst) hp))) (ins := fun acc v => acc ++ [v])
    simp only [foldl_snoc', List.nil_append] at this
    exact .unshift this
  | @linked t tr ps h ih =>
    intro hx
    have := Ev.items (tr := tr) (fun p hp => ih p hp (hx.arr (List.mem_map_of_mem (f := Prod.fst) hp))) (ins := fun acc v => acc ++ [v])
    simp only [foldl_snoc', List.nil_append] at this
    exact .unshift this
  | @hset t tr ps h ih =>
    intro hx
    have := Ev.items (tr := tr) (fun p hp => ih p hp (hx.arr (List.mem_map_of_mem (f := Prod.fst) hp))) (ins := collInsert env .hset)
    rw [hset_fold_firsts hk] at this
    exact .unshift this
  | @bset t tr r ps h hs ih =>
    intro hx
    have := Ev.items (tr := tr) (fun p hp => ih p hp (hx.arr (List.mem_map_of_mem (f := Prod.fst) hp))) (ins := collInsert env .bset)
    rw [bset_fold_unique hk hs] at this
    exact .unshift this
  | @array t m tr ps hl h ih =>
    intro hx
    have := Ev.tuple (env := env) (fl := fl) (ps := ps.map fun p => (t, p.1, p.2)) (tr := tr) (ts := List.replicate m t) (by
      intro q hq
      obtain ⟨p, hp, rfl⟩ := List.mem_map.1 hq
      exact ih p hp (hx.arr (List.mem_map_of_mem (f := Prod.fst) hp))) (by
      rw [List.map_map]
      apply List.ext_getElem
      · simp [hl]
      · intro i h1 h2; simp)
    simp only [List.map_map] at this
    exact .unshift (this.bind_ok rfl)
  | pair ps ht h ih =>
    intro hx
    exact .unshift ((Ev.tuple (fun p hp => ih p hp (hx.arr (List.mem_map_of_mem (f := fun p : Ty × JTree × Val => p.2.1) hp))) ht).bind_ok rfl)
  | triple ps ht h ih =>
    intro hx
    exact .unshift ((Ev.tuple (fun p hp => ih p hp (hx.arr (List.mem_map_of_mem (f := fun p : Ty × JTree × Val => p.2.1) hp))) ht).bind_ok rfl)
  | quad ps ht h ih =>
    intro hx
    exact .unshift ((Ev.tuple (fun p hp => ih p hp (hx.arr (List.mem_map_of_mem (f := fun p : Ty × JTree × Val => p.2.1) hp))) ht).bind_ok rfl)
  | @hmap k t tr r ps h1 h2 hl hr ih1 ih2 =>
    intro hx
    have hm := fun p (hp : p ∈ ps) => hx.obj (List.mem_map_of_mem (f := fun p : (JTree × Val) × (JTree × Val) => (p.1.1, p.2.1)) hp)
    have := Ev.entries (tr := tr) (fun p hp => ih1 p hp (hm p hp).1) (fun p hp => ih2 p hp (hm p hp).2) (ins := collInsert env .hmap)
    rw [hmap_fold_unique hk (allEntries_map ps _ _) hl (by rw [keys_map]; exact hr)] at this
    exact .unshift this
  | @bmap k t tr r ps h1 h2 hl hr ih1 ih2 =>
    intro hx
    have hm := fun p (hp : p ∈ ps) => hx.obj (List.mem_map_of_mem (f := fun p : (JTree × Val) × (JTree × Val) => (p.1.1, p.2.1)) hp)
    have := Ev.entries (tr := tr) (fun p hp => ih1 p hp (hm p hp).1) (fun p hp => ih2 p hp (hm p hp).2) (ins := collInsert env .bmap)
    rw [bmap_fold_unique hk (allEntries_map ps _ _) hl hr] at this
    exact .unshift this
  | box _ ih => exact fun hx => .unshift ((ih hx).bind_ok rfl)
  | @struct i fs cd nul vs tr ps hdf hg h ih =>
    intro hx
    have := Ev.named (tr := tr) (hd.fields i fs cd nul hdf) hg fun p hp f hf hs hn => ih p hp f hf hs hn
      (hx.obj (List.mem_map_of_mem (f := fun p : JMember => (JTree.str p.1, p.2.1)) hp)).2
    refine .unshift (this.mono fun n hn => ?_)
    simp only [decode, hdf, hn]; rfl
  | noFields hdf =>
    intro _
    exact .unshift (.of fun n => by simp only [decode, hdf]; rfl)
  | transparent hdf _ ih =>
    intro hx
    refine .unshift ((ih hx).mono fun n hn => ?_)
    simp only [decode, hdf, decTupleStruct, hn]; rfl
  | newtype hdf _ ih =>
    intro hx
    refine .unshift ((ih (hx.arr (by simp))).mono fun n hn => ?_)
    simp only [decode, hdf, decTupleStruct, hn]; rfl
  | @tupleStruct i trans tr ps hdf hl h ih =>
    intro hx
    have := Ev.tuple (tr := tr) (fun p hp => ih p hp (hx.arr (List.mem_map_of_mem (f := fun p : Ty × JTree × Val => p.2.1) hp))) rfl
    refine .unshift (this.mono fun n hn => ?_)
    simp only [decode, hdf]
    have e : ∀ ts : List Ty, 2 ≤ ts.length → ∀ o, decTupleStruct (decode env fl n) ts trans o =
        (decTuple (decode env fl n) ts o).bind fun vs => .ok (.struct vs) := by
      intro ts h o
      match ts, h with
      | a :: b :: ts, _ => simp [decTupleStruct]
    rw [e _ (by simpa using hl), hn]; rfl
  | @variant i vars j var hdf hv hs =>
    intro _
    refine .unshift (.of fun n => ?_)
    have := (findVariant_iff (hd.variants i vars hdf) (u := true) (k := var.jsonName) (j := j)).2 ⟨var, hv, by simp [hs], rfl⟩
    simp only [decode, hdf, decEnum, this]
  | @tupleVariant i vars j var tr ps hdf hv hs h ih =>
    intro hx
    have hK := (hx.obj (List.mem_singleton.2 rfl)).2
    have := Ev.tuple (tr := tr) (fun p hp => ih p hp (hK.arr (List.mem_map_of_mem (f := fun p : Ty × JTree × Val => p.2.1) hp))) rfl
    refine .unshift (this.mono fun n hn => ?_)
    have hf := (findVariant_iff (hd.variants i vars hdf) (u := false) (k := var.jsonName) (j := j)).2 ⟨var, hv, by simp [hs], rfl⟩
    simp only [decode, hdf, decEnum, hf, List.getD_eq_getElem?_getD, hv, Option.getD_some, hs, decShape, hn]
    rfl
  | @structVariant i vars j var fs vs tr ps hdf hv hs hg h ih =>
    intro hx
    have hK := (hx.obj (List.mem_singleton.2 rfl)).2
    have := Ev.named (tr := tr) (hd.varFields i vars hdf var (List.mem_of_getElem? hv) fs hs) hg fun p hp f hf hs hn => ih p hp f hf hs hn
      (hK.obj (List.mem_map_of_mem (f := fun p : JMember => (JTree.str p.1, p.2.1)) hp)).2
    refine .unshift (this.mono fun n hn => ?_)
    have hf := (findVariant_iff (hd.variants i vars hdf) (u := false) (k := var.jsonName) (j := j)).2 ⟨var, hv, by simp [hs], rfl⟩
    simp only [decode, hdf, decEnum, hf, List.getD_eq_getElem?_getD, hv, Option.getD_some, hs, decShape, hn]
    rfl
  | proxied hp _ ih =>
    intro hx
    refine .unshift ((ih hx).mono fun n hn => ?_)
    simp only [decode, hp, hn]; rfl

end NS
