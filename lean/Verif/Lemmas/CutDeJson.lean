import Verif.Lemmas.CutNamed
/-! Reading a JSON text that breaks off: all types. -/
namespace NS
variable {fl : FloatOps} {env : Env} {B : Nat}

theorem length_lt_sizeOf {α : Type} [SizeOf α] (xs : List α) : xs.length < sizeOf xs := by
  induction xs with
  | nil => simp
  | cons x xs ih => simp; omega

theorem Follows.more {B' : Nat} {x : Nat → PM Val} {J : JTree} (h : Follows fl B x J) (hB : B ≤ B') : Follows fl B' x J :=
  fun s tail hs => (h s tail hs).more hB

theorem Leafy.more {B' : Nat} {x : Nat → PM Val} (h : Leafy fl B x) (hB : B ≤ B') : Leafy fl B' x :=
  fun s hs => (h s hs).more hB

theorem zip_arr {ts : List Ty} {xs : List JTree} {tr : Bool} {p : Ty × JTree} (h : p ∈ ts.zip xs) :
    sizeOf p.2 < sizeOf (JTree.arr xs tr) ∧ p.1 ∈ ts := by
  obtain ⟨h1, h2⟩ := List.of_mem_zip (a := p.1) (b := p.2) h
  have := List.sizeOf_lt_of_mem h2
  exact ⟨by simp; omega, h1⟩

theorem arr_lt (xs : List JTree) (tr : Bool) : xs.length < sizeOf (JTree.arr xs tr) := by
  have := length_lt_sizeOf xs
  simp; omega

theorem obj_lt (ms : List (JTree × JTree)) (tr : Bool) : ms.length < sizeOf (JTree.obj ms tr) := by
  have := length_lt_sizeOf ms
  simp; omega

theorem obj_mem {ms : List (JTree × JTree)} {tr : Bool} {m : JTree × JTree} (h : m ∈ ms) :
    sizeOf m.1 < sizeOf (JTree.obj ms tr) ∧ sizeOf m.2 < sizeOf (JTree.obj ms tr) := by
  have := List.sizeOf_lt_of_mem h
  obtain ⟨a, b⟩ := m
  simp at this ⊢; omega

theorem cut_follows (hfl : FloatLaws fl) (hw : ProgWf env) {rank : Ty → Nat} (hp : Ranked env rank) {S : Ty → Prop} (hS : PartsIn env S) {K : Nat}
    (hK : ∀ u, S u → rank u ≤ K) (J : JTree) (t : Ty) (ht : TyWf env t) (hSt : S t) (hT : ¬ Trips env t J) :
    Follows fl ((K + 1) * sizeOf J + rank t + 1) (fun n => deJson env fl n t) J := by
  have hp' := hp
  obtain ⟨r1, r2, r3, r4⟩ := hp'
  generalize hso : sizeOf J = so
  generalize hrt : rank t = rt
  induction so using Nat.strongRecOn generalizing J t rt with
  | ind so ihs =>
  induction rt using Nat.strongRecOn generalizing t with
  | ind rt ihr =>
  subst hso hrt
  have hpos : 1 ≤ sizeOf J := by cases J <;> simp <;> omega
  generalize hBB : (K + 1) * sizeOf J + rank t = BB
  have hmul : ∀ a, a < sizeOf J → (K + 1) * a + (K + 1) ≤ BB := by
    intro a ha
    have h2 : (K + 1) * (a + 1) ≤ (K + 1) * sizeOf J := Nat.mul_le_mul_left _ ha
    rw [Nat.mul_add] at h2
    omega
  have hB : sizeOf J ≤ BB := by
    have : 1 * sizeOf J ≤ (K + 1) * sizeOf J := Nat.mul_le_mul_right _ (by omega)
    omega
  have sub : ∀ t' y, sizeOf y < sizeOf J → S t' → TyWf env t' → ReadsPart env t J t' y → Follows fl BB (fun n => deJson env fl n t') y := by
    intro t' y hy hSt' ht' hr
    refine (ihs _ hy y t' ht' hSt' (fun h => hT (.part hr h)) rfl _ rfl).more ?_
    have h1 := hK t' hSt'
    have := hmul _ hy
    omega
  have same : ∀ t', rank t' < rank t → S t' → TyWf env t' → ReadsPart env t J t' J → Follows fl BB (fun n => deJson env fl n t') J := by
    intro t' hr hSt' ht' hp
    exact (ihr (rank t') hr t' ht' hSt' (fun h => hT (.part hp h)) rfl).more (by omega)
  have leafy : ∀ t', S t' → TyWf env t' → Leafy fl BB (fun n => deJson env fl n t') := by
    intro t' hSt' ht' s hs
    refine (leaf_read hp hw t' ht' s (.inr hs)).more ?_
    have h1 := hK t' hSt'
    have := hmul 0 (by omega)
    omega
  have hSt := hS t hSt
  have lst : ∀ u add, (t = .vec u ∨ t = .linked u ∨ t = .hset u ∨ t = .bset u) → S u → TyWf env u →
      Follows fl BB (fun n => NS.deSeq (jNext fl) n (deJson env fl n u) add) J := by
    intro u add hu hSu hwu
    refine Cuts.deSeq (x := fun n => deJson env fl n u) (leafy u hSu hwu) (fun xs tr e => ?_) add
    subst e
    refine ⟨Nat.lt_of_lt_of_le (arr_lt xs tr) hB, fun y hy => sub u y ?_ hSu hwu (.item hu hy)⟩
    have := List.sizeOf_lt_of_mem hy
    simp; omega
  have mp : ∀ k v add, (t = .hmap k v ∨ t = .bmap k v) → S k → S v → TyWf env k → TyWf env v →
      Follows fl BB (fun n => NS.deMap (jNext fl) n (deJson env fl n k) (deJson env fl n v) add) J := by
    intro k v add hu hSk hSv hwk hwv
    refine Cuts.deMap (x := fun n => deJson env fl n k) (y := fun n => deJson env fl n v) (leafy k hSk hwk) (fun ms tr e => ?_) add
    subst e
    refine ⟨Nat.lt_of_lt_of_le (obj_lt ms tr) hB, fun m hm => ⟨sub k _ (obj_mem hm).1 hSk hwk (.key hu hm), sub v _ (obj_mem hm).2 hSv hwv (.value hu hm)⟩⟩
  have tup : ∀ ts : List Ty, t.components = ts → (∀ t ∈ ts, S t) → (∀ t ∈ ts, TyWf env t) →
      Follows fl BB (fun n => NS.deTuple (blockOpen (jNext fl)) (blockClose (jNext fl)) (eatCommaBlock (jNext fl)) (deJson env fl n) ts) J := by
    intro ts hcs hss hts s tail hF
    refine Cuts.expectThen _ fun s1 ht e1 => ?_
    obtain ⟨xs, tr, rfl, hn⟩ := arr_of hF ht
    refine Ends.bind (f := fun _ vs => blockClose (jNext fl) >>= fun _ => Pure.pure (Val.seq vs))
      (Cuts.deTysComma (de := fun n => deJson env fl n) (fun u hu => leafy u (hss u hu) (hts u hu))
        (fun p hp => sub p.1 p.2 (zip_arr hp).1 (hss _ (zip_arr (tr := tr) hp).2) (hts _ (zip_arr (tr := tr) hp).2) (.component (hcs ▸ hp))) (hn s1 e1))
      fun vs s2 _ ⟨ys, h2⟩ => ?_
    exact Ends.bind (f := fun _ _ => Pure.pure _) (h2.close (items_begin ys) (.inl rfl) _) fun _ s3 _ h3 => Cuts.pure h3
  have dur : ∀ bound, bound ≤ 2 ^ 64 → ¬ LateBy bound J → ∀ s tail, JFeeds fl (J.lexemes ++ tail) s →
      Cuts BB (fun n => NS.deDur (jNext fl) n) s (fun v s' => JFeeds fl tail s' ∧ ∀ a b, v = .dur a b → a < bound) := by
    intro bound hb hl s tail hF
    refine Cuts.deDur hb (fun ms tr e => ?_) hl hF
    subst e
    exact Nat.lt_of_lt_of_le (obj_lt ms tr) hB
  intro s tail hF
  by_cases hlf : t.isLeaf = true
  · refine (leaf_read hp hw t ht s (.inl hlf)).more (by omega) |>.weaken fun _ s' _ h => hF.leaf h
  apply Ends.succ
  cases t with
  | unit | bool | int _ | f32 | f64 | str => exact absurd rfl hlf
  | dur => exact (dur (2 ^ 64) (Nat.le_refl _) (fun h => hT (.dur h)) s tail hF).weaken fun _ _ _ h => h.1
  | time =>
    refine Ends.get ?_
    by_cases hn : s.tok = .null
    · simp only [if_pos hn]
      refine Ends.bind (f := fun _ _ => NS.epochAt .none) Cuts.nx fun _ s1 _ h1 => ?_
      have lf : Cuts.Leaf fl s () s1 := ⟨.inl (by rw [hn]; rfl), s, rfl, h1⟩
      exact ⟨.ok (.time 0 0) s1, ⟨trivial, hF.leaf lf⟩, fun _ _ => rfl⟩
    · simp only [if_neg hn]
      refine Ends.bind (f := fun _ v => NS.epochAt v) (dur (2 ^ 63) (by decide) (fun h => hT (.time h)) s tail hF) fun v s1 _ h1 => ?_
      refine ⟨NS.epochAt v s1, ?_, fun _ _ => rfl⟩
      unfold NS.epochAt
      split
      · rename_i a b
        rw [if_pos (h1.2 a b rfl)]
        exact ⟨trivial, h1.1⟩
      · exact ⟨trivial, h1.1⟩
  | option t =>
    refine Ends.get ?_
    by_cases hn : s.tok = .null
    · simp only [if_pos hn]
      refine Ends.bind (f := fun _ _ => Pure.pure Val.none) Cuts.nx fun _ s1 _ h1 => ?_
      have lf : Cuts.Leaf fl s () s1 := ⟨.inl (by rw [hn]; rfl), s, rfl, h1⟩
      exact Cuts.pure (hF.leaf lf)
    · simp only [if_neg hn]
      exact Ends.bind (f := fun _ v => Pure.pure (Val.some v)) (same t (r1 t) (hSt t (by simp [Ty.parts])) ht .some s tail hF)
        fun _ s1 _ h1 => Cuts.pure h1
  | vec t => exact lst t _ (.inl rfl) (hSt t (by simp [Ty.parts])) ht s tail hF
  | linked t => exact lst t _ (.inr (.inl rfl)) (hSt t (by simp [Ty.parts])) ht s tail hF
  | hset t => exact lst t _ (.inr (.inr (.inl rfl))) (hSt t (by simp [Ty.parts])) ht s tail hF
  | bset t => exact lst t _ (.inr (.inr (.inr rfl))) (hSt t (by simp [Ty.parts])) ht s tail hF
  | array t len =>
    have hSu := hSt t (by simp [Ty.parts])
    refine Cuts.expectThen _ fun s1 ht1 e1 => ?_
    obtain ⟨xs, tr, rfl, hn⟩ := arr_of hF ht1
    refine Ends.bind (f := fun n vs => blockClose (jNext fl) >>= fun _ => Pure.pure (Val.seq vs))
      (Cuts.repeatEat (x := fun n => deJson env fl n t) (leafy t hSu ht) len (fun y hy => sub t y (by
        have := List.sizeOf_lt_of_mem hy
        simp; omega) hSu ht (.array hy)) (hn s1 e1)) fun vs s2 _ ⟨ys, h2⟩ => ?_
    exact Ends.bind (f := fun _ _ => Pure.pure _) (h2.close (items_begin ys) (.inl rfl) _) fun _ s3 _ h3 => Cuts.pure h3
  | pair a b =>
    refine tup [a, b] rfl hSt (fun t' h => ?_) s tail hF
    simp only [List.mem_cons, List.not_mem_nil, or_false] at h
    rcases h with rfl | rfl
    · exact ht.1
    · exact ht.2
  | triple a b c =>
    refine tup [a, b, c] rfl hSt (fun t' h => ?_) s tail hF
    simp only [List.mem_cons, List.not_mem_nil, or_false] at h
    rcases h with rfl | rfl | rfl
    · exact ht.1
    · exact ht.2.1
    · exact ht.2.2
  | quad a b c d =>
    refine tup [a, b, c, d] rfl hSt (fun t' h => ?_) s tail hF
    simp only [List.mem_cons, List.not_mem_nil, or_false] at h
    rcases h with rfl | rfl | rfl | rfl
    · exact ht.1
    · exact ht.2.1
    · exact ht.2.2.1
    · exact ht.2.2.2
  | hmap k v => exact mp k v _ (.inl rfl) (hSt k (by simp [Ty.parts])) (hSt v (by simp [Ty.parts])) ht.1 ht.2 s tail hF
  | bmap k v => exact mp k v _ (.inr rfl) (hSt k (by simp [Ty.parts])) (hSt v (by simp [Ty.parts])) ht.1 ht.2 s tail hF
  | box t =>
    exact Ends.bind (f := fun _ v => Pure.pure (Val.box v)) (same t (r2 t) (hSt t (by simp [Ty.parts])) ht .box s tail hF)
      fun _ s1 _ h1 => Cuts.pure h1
  | proxied i =>
    have hi : i < env.proxies.length := ht
    have he := List.getElem?_eq_getElem hi
    have hm := List.getElem_mem hi
    simp only [deJson, he]
    exact Ends.bind (f := fun _ p => Pure.pure _) (same _ (r4 i _ he) (hSt _ (by simp [Ty.parts, he])) (hw.proxies _ hm) (.proxied he) s tail hF)
      fun _ s1 _ h1 => Cuts.pure h1
  | named i =>
    have hi : i < env.defs.length := ht
    have he := List.getElem?_eq_getElem hi
    have hwd := hw.defs _ (List.getElem_mem hi)
    simp only [Ty.parts, he] at hSt
    simp only [deJson, he]
    generalize env.defs[i] = d at *
    have obj : ∀ fs cd x s tail, (∀ ms tr, x = JTree.obj ms tr → ObjectOf env (.named i) J fs ms ∧ sizeOf x ≤ sizeOf J) →
        (∀ f ∈ fs, S f.ty ∧ TyWf env f.ty) → JFeeds fl (x.lexemes ++ tail) s →
        Cuts BB (fun n => deJsonNamed (jNext fl) n (deJson env fl n) cd fs) s (fun _ s' => JFeeds fl tail s') := by
      intro fs cd x s tail hx hfs hF
      refine Cuts.named (de := fun n => deJson env fl n) cd (fun ms tr e => ?_) hF
      obtain ⟨ho, hle⟩ := hx ms tr e
      subst e
      refine ⟨Nat.lt_of_lt_of_le (obj_lt ms tr) (Nat.le_trans hle hB), fun hne k y hy => ?_, fun f hf hsk y hy => ?_⟩
      · refine Decidable.byContradiction fun hno => hT (.unknown ho hne hy fun f hf h1 h2 => hno ⟨f, hf, h1, h2⟩)
      · have hlt : sizeOf y < sizeOf J := Nat.lt_of_lt_of_le (obj_mem (tr := tr) hy).2 hle
        have hr : ReadsPart env (.named i) J f.ty y := .field ho hf hsk hy
        refine Cuts.deField (de := fun n => deJson env fl n) (sub f.ty y hlt (hfs f hf).1 (hfs f hf).2 hr) fun t' ht' => ?_
        have h1 := hfs f hf
        rw [ht'] at h1 hr
        have hSt' := hS _ h1.1 t' (by simp [Ty.parts])
        refine (ihs _ hlt y t' h1.2 hSt' (fun h => hT (.part hr (.part .some h))) rfl _ rfl).more ?_
        have h2 := hK t' hSt'
        have := hmul _ hlt
        omega
    cases d with
    | struct fs cd nul =>
      exact Ends.bind (f := fun _ vs => Pure.pure (Val.struct vs)) (obj fs cd J s tail (fun ms tr e => ⟨e ▸ .struct he, Nat.le_refl _⟩)
        (fun f hf => ⟨hSt _ (by simp [Def.tys]; exact ⟨f, hf, rfl⟩), hwd _ (by simp [Def.tys]; exact ⟨f, hf, rfl⟩)⟩) hF)
        fun _ s1 _ h1 => Cuts.pure h1
    | tuple ts tr =>
      simp only [Def.tys] at hwd hSt
      simp only
      match ts, tr, hwd, hSt, he with
      | [], tr, hwd, hSt, he =>
        refine Cuts.expectThen _ fun s1 ht1 e1 => ?_
        obtain ⟨ms, tr, rfl, hn⟩ := obj_of hF ht1
        exact Ends.bind (f := fun _ _ => Pure.pure (Val.struct [])) ((hn s1 e1).close (members_begin ms) (.inr rfl) _) fun _ s2 _ h2 => Cuts.pure h2
      | [t], true, hwd, hSt, he =>
        exact Ends.bind (f := fun _ v => Pure.pure (Val.struct [v]))
          (same t (r3 i t he) (hSt t (by simp)) (hwd t (by simp)) (.transparent he) s tail hF) fun _ s1 _ h1 => Cuts.pure h1
      | [t], false, hwd, hSt, he =>
        refine Cuts.expectThen _ fun s1 ht1 e1 => ?_
        obtain ⟨xs, tr, rfl, hn⟩ := arr_of hF ht1
        have h1 := hn s1 e1
        cases xs with
        | nil =>
          have hs : Over fl s1 ∨ s1.tok = .blockClose := h1.imp id fun h => h.1
          have hne : s1.tok ≠ .blockOpen ∧ s1.tok ≠ .curlyOpen := by
            rcases hs with h | h
            · exact ⟨h.tok_ne (by decide) rfl, h.tok_ne (by decide) rfl⟩
            · rw [h]; exact ⟨by decide, by decide⟩
          refine Ends.bind (f := fun n v => blockClose (jNext fl) >>= fun _ => Pure.pure (Val.struct [v]))
            (leafy t (hSt t (by simp)) (hwd t (by simp)) s1 hne) fun v s2 _ ⟨k1, s0, k2, k3⟩ => Cuts.miss ?_ _ _
          rcases hs with (h | ⟨h, h'⟩) | h
          · rw [h] at k1; rcases k1 with k1 | k1 <;> cases k1
          · rw [h' s0 s2 k2 k3]; decide
          · rw [h] at k1; rcases k1 with k1 | k1 <;> cases k1
        | cons x xs =>
          rw [List.map_cons, commaLexemes_after, List.append_assoc] at h1
          refine Ends.bind (f := fun n v => blockClose (jNext fl) >>= fun _ => Pure.pure (Val.struct [v]))
            (sub t x (by simp; omega) (hSt t (by simp)) (hwd t (by simp)) (.tuple (p := (t, x)) he (fun _ => rfl) (by simp)) s1 _ h1) fun v s2 _ h2 => ?_
          exact Ends.bind (f := fun _ _ => Pure.pure _) (h2.closeAfter (.inl rfl) _) fun _ s3 _ h3 => Cuts.pure h3
      | t :: t' :: ts, b, hwd, hSt, he =>
        have : ∀ n, deJsonTupleStruct (jNext fl) (deJson env fl n) (t :: t' :: ts) b = (do
            blockOpen (jNext fl)
            let vs ← NS.deTysEat (deJson env fl n) (eatCommaBlock (jNext fl)) (t :: t' :: ts)
            blockClose (jNext fl)
            Pure.pure (.struct vs)) := by
          intro n; cases b <;> rfl
        simp only [this]
        refine Cuts.expectThen _ fun s1 ht1 e1 => ?_
        obtain ⟨xs, tr, rfl, hn⟩ := arr_of hF ht1
        refine Ends.bind (f := fun n vs => blockClose (jNext fl) >>= fun _ => Pure.pure (Val.struct vs))
          (Cuts.deTysEat (de := fun n => deJson env fl n) (fun u hu => leafy u (hSt u hu) (hwd u hu))
            (fun p hp => sub p.1 p.2 (zip_arr hp).1 (hSt _ (zip_arr (tr := tr) hp).2) (hwd _ (zip_arr (tr := tr) hp).2)
              (.tuple he (fun h => by simp at h) hp)) (hn s1 e1)) fun vs s2 _ ⟨ys, h2⟩ => ?_
        exact Ends.bind (f := fun _ _ => Pure.pure _) (h2.close (items_begin ys) (.inl rfl) _) fun _ s3 _ h3 => Cuts.pure h3
    | enum vars =>
      simp only
      have hin : ∀ v ∈ vars, ∀ u, (∃ ts, v.shape = .tuple ts ∧ u ∈ ts) ∨ (∃ fs f, v.shape = .named fs ∧ f ∈ fs ∧ f.ty = u) →
          S u ∧ TyWf env u := by
        intro v hv u hu
        have : u ∈ (Def.enum vars).tys := by
          simp only [Def.tys, List.mem_flatMap]
          refine ⟨v, hv, ?_⟩
          rcases hu with ⟨ts, h1, h2⟩ | ⟨fs, f, h1, h2, rfl⟩
          · rw [h1]; exact h2
          · rw [h1]; exact List.mem_map.2 ⟨f, h2, rfl⟩
        exact ⟨hSt _ this, hwd _ this⟩
      refine Cuts.jEnum hfl (de := fun n => deJson env fl n) (fun k x rest tr e v hv hk => ?_) hF
      subst e hk
      have hx : sizeOf x < sizeOf (JTree.obj ((.str v.jsonName, x) :: rest) tr) := by simp; omega
      refine ⟨fun ts hts => ⟨fun u hu => leafy u (hin v hv u (.inl ⟨ts, hts, hu⟩)).1 (hin v hv u (.inl ⟨ts, hts, hu⟩)).2, fun xs tr' e p hp => ?_⟩,
        fun fs hfs s tail hF => ?_⟩
      · subst e
        have hp' := zip_arr (tr := tr') hp
        have hu := hin v hv p.1 (.inl ⟨ts, hts, hp'.2⟩)
        exact sub p.1 p.2 (Nat.lt_trans hp'.1 hx) hu.1 hu.2 (.variant he hv hts hp)
      · refine obj fs false x s tail (fun ms tr' e => ?_) (fun f hf => hin v hv _ (.inr ⟨fs, f, hfs, hf, rfl⟩)) hF
        subst e
        exact ⟨.variant he hv hfs, Nat.le_of_lt hx⟩

end NS
