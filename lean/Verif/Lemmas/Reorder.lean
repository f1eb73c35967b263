import Verif.Spec.Reorder
import Verif.Lemmas.HashOrder
import Verif.Props.BinValues
/-! # Rearranged JSON values mean the same -/
namespace NS
variable {env : Env} {fl : FloatOps}

theorem map_swap_fst {α β γ : Type} (ps : List (α × β × γ)) :
    (ps.map fun p => (p.1, p.2.2, p.2.1)).map (fun p => p.1) = ps.map (fun p => p.1) := by
  rw [List.map_map]; rfl

theorem JRearranged.symm {B : Ty → JTree → JTree → Prop} {t : Ty} {J J' : JTree} (h : JRearranged env B t J J') :
    JRearranged env (fun t J J' => B t J' J) t J' J := by
  induction h with
  | refl => exact .refl
  | swap h => exact .swap h
  | dur => exact .dur
  | time => exact .time
  | option _ ih => exact .option ih
  | box _ ih => exact .box ih
  | @seq c t tr tr' ps hc _ ih =>
    have := JRearranged.seq (env := env) (B := fun t J J' => B t J' J) (tr := tr') (tr' := tr) (c := c) (t := t) (ps.map fun p => (p.2, p.1)) (by simpa using hc) (by
      intro p hp
      obtain ⟨q, hq, rfl⟩ := List.mem_map.1 hp
      exact ih q hq)
    simpa [List.map_map, Function.comp_def] using this
  | @tuple c tr tr' ps hc _ ih =>
    have := JRearranged.tuple (env := env) (B := fun t J J' => B t J' J) (tr := tr') (tr' := tr) (c := c) (ps.map fun p => (p.1, p.2.2, p.2.1))
      (by simpa [List.map_map, Function.comp_def] using hc) (by
      intro p hp
      obtain ⟨q, hq, rfl⟩ := List.mem_map.1 hp
      exact ih q hq)
    simpa [List.map_map, Function.comp_def] using this
  | @map c k t tr tr' ps hc _ _ ih1 ih2 =>
    have := JRearranged.map (env := env) (B := fun t J J' => B t J' J) (tr := tr') (tr' := tr) (c := c) (k := k) (t := t)
      (ps.map fun p => ((p.1.2, p.1.1), (p.2.2, p.2.1))) hc (by
      intro p hp
      obtain ⟨q, hq, rfl⟩ := List.mem_map.1 hp
      exact ih1 q hq) (by
      intro p hp
      obtain ⟨q, hq, rfl⟩ := List.mem_map.1 hp
      exact ih2 q hq)
    simpa [List.map_map, Function.comp_def] using this
  | transparent h _ ih => exact .transparent h ih
  | newtype h _ ih => exact .newtype h ih
  | struct ms ms' ps us us' hd hne hp h1 h2 u1 u2 _ ih =>
    refine .struct ms' ms (ps.map fun p => (p.1, p.2.2, p.2.1)) us' us hd hne (List.pairwise_map.2 hp)
      (by simpa [List.map_map, Function.comp_def] using h2) (by simpa [List.map_map, Function.comp_def] using h1) u2 u1 ?_
    intro p hp f hf hs hn
    obtain ⟨q, hq, rfl⟩ := List.mem_map.1 hp
    exact ih q hq f hf hs hn
  | structVariant ms ms' ps us us' hd hv hs hne hp h1 h2 u1 u2 _ ih =>
    refine .structVariant ms' ms (ps.map fun p => (p.1, p.2.2, p.2.1)) us' us hd hv hs hne (List.pairwise_map.2 hp)
      (by simpa [List.map_map, Function.comp_def] using h2) (by simpa [List.map_map, Function.comp_def] using h1) u2 u1 ?_
    intro p hp f hf hs hn
    obtain ⟨q, hq, rfl⟩ := List.mem_map.1 hp
    exact ih q hq f hf hs hn
  | @tupleVariant i j vars tr tr' var ps hd hv hs _ ih =>
    have := JRearranged.tupleVariant (env := env) (B := fun t J J' => B t J' J) (tr := tr') (tr' := tr) (ps.map fun p => (p.1, p.2.2, p.2.1)) hd hv
      (by simpa [List.map_map, Function.comp_def] using hs) (by
      intro p hp
      obtain ⟨q, hq, rfl⟩ := List.mem_map.1 hp
      exact ih q hq)
    simpa [List.map_map, Function.comp_def] using this
  | dropNull a b h hf hn hm => exact .addNull a b h hf hn hm
  | addNull a b h hf hn hm => exact .dropNull a b h hf hn hm
  | dropNullVariant a b h hv hs hf hn hm => exact .addNullVariant a b h hv hs hf hn hm
  | addNullVariant a b h hv hs hf hn hm => exact .dropNullVariant a b h hv hs hf hn hm
  | bset h => exact .bset h.symm
  | bmap ms ms' h hd => exact .bmap ms' ms h.symm ((h.pairwise_iff (fun h => h.symm)).1 hd)
  | proxied h _ ih => exact .proxied h ih

theorem JRearranged.not_null {B : Ty → JTree → JTree → Prop} (hB : ∀ t J J', B t J J' → JReadAlike env fl t J J') {t : Ty} {J J' : JTree} (h : JRearranged env B t J J') (hn : J ≠ .null) : J' ≠ .null := by
  induction h with
  | refl => exact hn
  | swap h => exact fun e => hn ((hB _ _ _ h).1.2 e)
  | option _ ih | box _ ih | transparent _ _ ih | proxied _ _ ih => exact ih hn
  | _ => simp

/-! ## Lists -/

/-- Values of items, carried over to related items. -/
theorem carry {α β : Type} {R : α → β → Prop} {S : α → β → Prop} (ps : List (α × α)) (qs : List (α × β))
    (e : qs.map (·.1) = ps.map (·.1)) (h : ∀ p ∈ ps, ∀ v, R p.1 v → S p.2 v) (hq : ∀ q ∈ qs, R q.1 q.2) :
    ∃ rs : List (α × β), rs.map (·.1) = ps.map (·.2) ∧ rs.map (·.2) = qs.map (·.2) ∧ ∀ r ∈ rs, S r.1 r.2 := by
  induction ps generalizing qs with
  | nil =>
    cases qs with
    | nil => exact ⟨[], rfl, rfl, by simp⟩
    | cons q qs => cases e
  | cons p ps ih =>
    cases qs with
    | nil => cases e
    | cons q qs =>
      simp only [List.map_cons, List.cons.injEq] at e
      obtain ⟨rs, h1, h2, h3⟩ := ih qs e.2 (fun p hp => h p (List.mem_cons_of_mem _ hp)) (fun q hq' => hq q (List.mem_cons_of_mem _ hq'))
      refine ⟨(p.2, q.2) :: rs, by simp [h1], by simp [h2], ?_⟩
      intro r hr
      rcases List.mem_cons.1 hr with rfl | hr
      · exact h p List.mem_cons_self q.2 (e.1 ▸ hq q List.mem_cons_self)
      · exact h3 r hr

/-- The same with a type for each item. -/
theorem carryT {α : Type} {R : Ty → α → Val → Prop} (ps : List (Ty × α × α)) (qs : List (Ty × α × Val))
    (et : qs.map (·.1) = ps.map (·.1)) (e : qs.map (·.2.1) = ps.map (·.2.1))
    (h : ∀ p ∈ ps, ∀ v, R p.1 p.2.1 v → R p.1 p.2.2 v) (hq : ∀ q ∈ qs, R q.1 q.2.1 q.2.2) :
    ∃ rs : List (Ty × α × Val), rs.map (·.1) = ps.map (·.1) ∧ rs.map (·.2.1) = ps.map (·.2.2) ∧
      rs.map (·.2.2) = qs.map (·.2.2) ∧ ∀ r ∈ rs, R r.1 r.2.1 r.2.2 := by
  induction ps generalizing qs with
  | nil =>
    cases qs with
    | nil => exact ⟨[], rfl, rfl, rfl, by simp⟩
    | cons q qs => cases e
  | cons p ps ih =>
    cases qs with
    | nil => cases e
    | cons q qs =>
      simp only [List.map_cons, List.cons.injEq] at e et
      obtain ⟨rs, h1, h2, h3, h4⟩ := ih qs et.2 e.2 (fun p hp => h p (List.mem_cons_of_mem _ hp)) (fun q hq' => hq q (List.mem_cons_of_mem _ hq'))
      refine ⟨(p.1, p.2.2, q.2.2) :: rs, by simp [h1], by simp [h2], by simp [h3], ?_⟩
      intro r hr
      rcases List.mem_cons.1 hr with rfl | hr
      · have := hq q List.mem_cons_self
        rw [e.1, et.1] at this
        exact h p List.mem_cons_self q.2.2 this
      · exact h4 r hr

/-! ## Members -/

/-- The value of the last member with a name. -/
def lastV {α : Type} (ps : List (List Char × α × Val)) (k : List Char) : Option Val := (ps.reverse.find? (fun p => p.1 == k)).map (·.2.2)

theorem lastV_split {α : Type} {ps : List (List Char × α × Val)} {k : List Char} {a b : List (List Char × α × Val)} {p : List Char × α × Val} (h : ps = a ++ p :: b) (hp : p.1 = k)
    (hb : ∀ q ∈ b, q.1 ≠ k) : lastV ps k = some p.2.2 := by
  subst h
  unfold lastV
  rw [List.reverse_append, List.reverse_cons, List.append_assoc, List.find?_append, List.find?_eq_none.2 (by
    intro q hq; simpa using hb q (List.mem_reverse.1 hq))]
  simp [hp]

theorem last_split {α : Type} {f : α → Bool} {l : List α} {x : α} (hx : x ∈ l) (hf : f x = true) :
    ∃ a y b, l = a ++ y :: b ∧ f y = true ∧ ∀ z ∈ b, f z = false := by
  induction l generalizing x with
  | nil => cases hx
  | cons y l ih =>
    rcases Classical.em (∃ z ∈ l, f z = true) with ⟨z, hz, hfz⟩ | hno
    · obtain ⟨a, y', b, rfl, h1, h2⟩ := ih hz hfz
      exact ⟨y :: a, y', b, rfl, h1, h2⟩
    · have hl : ∀ z ∈ l, f z = false := fun z hz => by
        cases e : f z with
        | false => rfl
        | true => exact absurd ⟨z, hz, e⟩ hno
      rcases List.mem_cons.1 hx with rfl | hx
      · exact ⟨[], x, l, rfl, hf, hl⟩
      · rw [hl x hx] at hf; cases hf

theorem pairwise_unique {α : Type} {ps : List (List Char × α)} (h : ps.Pairwise fun p q => p.1 ≠ q.1) {p q : List Char × α}
    (hp : p ∈ ps) (hq : q ∈ ps) (e : p.1 = q.1) : p = q := by
  induction ps with
  | nil => cases hp
  | cons x ps ih =>
    obtain ⟨h1, h2⟩ := List.pairwise_cons.1 h
    rcases List.mem_cons.1 hp with rfl | hp' <;> rcases List.mem_cons.1 hq with rfl | hq'
    · rfl
    · exact absurd e (h1 q hq')
    · exact absurd e.symm (h1 p hp')
    · exact ih h2 hp' hq'

/-- The fields get the same from rearranged members. -/
theorem members_same {cd : Bool} {fs : List Field} {vs : List Val} {ps0 : List JMember} {ms ms' : List (List Char × JTree)}
    {ps : List (List Char × JTree × JTree)} {us us' : List (List Char × JTree)} (hne : fs ≠ [])
    (hp : ps.Pairwise fun p q => p.1 ≠ q.1) (h1 : ms.Perm (ps.map (fun p => (p.1, p.2.1)) ++ us))
    (h2 : ms'.Perm (ps.map (fun p => (p.1, p.2.2)) ++ us')) (u1 : NobodyReads fs us) (u2 : NobodyReads fs us')
    (hR : ∀ p ∈ ps, ∀ f ∈ fs, f.skip = false → f.jsonName = p.1 → ∀ v, JsonMeans env fl f.readTy p.2.1 v → JsonMeans env fl f.readTy p.2.2 v)
    (e : ps0.map (fun p => (p.1, p.2.1)) = ms) (hg : JFieldsGet cd fs ps0 vs)
    (hm : ∀ p ∈ ps0, ∀ f ∈ fs, f.skip = false → f.jsonName = p.1 → JsonMeans env fl f.readTy p.2.1 p.2.2) :
    ∃ qs : List JMember, qs.map (fun p => (p.1, p.2.1)) = ms' ∧ JFieldsGet cd fs qs vs ∧
      ∀ p ∈ qs, ∀ f ∈ fs, f.skip = false → f.jsonName = p.1 → JsonMeans env fl f.readTy p.2.1 p.2.2 := by
  -- a member read by a field is one of `ps`
  have left : ∀ p ∈ ps0, ∀ f ∈ fs, f.skip = false → f.jsonName = p.1 → ∃ q ∈ ps, q.1 = p.1 ∧ q.2.1 = p.2.1 := by
    intro p hp0 f hf hs hn
    have : (p.1, p.2.1) ∈ ms := by rw [← e]; exact List.mem_map.2 ⟨p, hp0, rfl⟩
    rcases List.mem_append.1 (h1.mem_iff.1 this) with h | h
    · obtain ⟨q, hq, hq'⟩ := List.mem_map.1 h
      injection hq' with a b
      exact ⟨q, hq, a, b⟩
    · exact absurd hn (u1 _ h f hf hs)
  have right : ∀ m ∈ ms', ∀ f ∈ fs, f.skip = false → f.jsonName = m.1 → ∃ q ∈ ps, q.1 = m.1 ∧ q.2.2 = m.2 := by
    intro m hm' f hf hs hn
    rcases List.mem_append.1 (h2.mem_iff.1 hm') with h | h
    · obtain ⟨q, hq, rfl⟩ := List.mem_map.1 h
      exact ⟨q, hq, rfl, rfl⟩
    · exact absurd hn (u2 _ h f hf hs)
  have inL : ∀ q ∈ ps, ∃ p ∈ ps0, p.1 = q.1 := by
    intro q hq
    have : (q.1, q.2.1) ∈ ms := h1.mem_iff.2 (List.mem_append_left _ (List.mem_map.2 ⟨q, hq, rfl⟩))
    rw [← e] at this
    obtain ⟨p, hp0, hp1⟩ := List.mem_map.1 this
    exact ⟨p, hp0, congrArg Prod.fst hp1⟩
  have inR : ∀ q ∈ ps, (q.1, q.2.2) ∈ ms' := fun q hq =>
    h2.mem_iff.2 (List.mem_append_left _ (List.mem_map.2 ⟨q, hq, rfl⟩))
  refine ⟨ms'.map fun m => (m.1, m.2, (lastV ps0 m.1).getD .unit), ?_, ⟨fun h => absurd h hne, hg.2.1, fun i f w hf hw => ?_⟩, ?_⟩
  · rw [List.map_map]
    exact List.map_id _
  · have h := hg.2.2 i f w hf hw
    have hfm := List.mem_of_getElem? hf
    unfold JFieldGets at h ⊢
    split
    · rename_i hs; rw [if_pos hs] at h; exact h
    · rename_i hs
      rw [if_neg hs] at h
      have hs : f.skip = false := by simpa using hs
      rcases h with ⟨a, p, b, h3, h4, h5, h6⟩ | ⟨h3, h4, h5⟩
      · left
        obtain ⟨q, hq, q1, q2⟩ := left p (by rw [h3]; simp) f hfm hs h4.symm
        have hl := lastV_split h3 h4 h5
        obtain ⟨a', y, b', g1, g2, g3⟩ := last_split (f := fun m : List Char × JTree => m.1 == f.jsonName) (inR q hq)
          (by simp [q1, h4])
        have g2 : y.1 = f.jsonName := by simpa using g2
        refine ⟨_, (y.1, y.2, (lastV ps0 y.1).getD .unit), _, by rw [g1, List.map_append, List.map_cons], g2, ?_, ?_⟩
        · intro z hz
          obtain ⟨z', hz', rfl⟩ := List.mem_map.1 hz
          simpa using g3 z' hz'
        · rw [h6, g2, hl]; rfl
      · right
        refine ⟨fun z hz hn => ?_, h4, h5⟩
        obtain ⟨m, hm', rfl⟩ := List.mem_map.1 hz
        obtain ⟨q, hq, q1, _⟩ := right m hm' f hfm hs hn.symm
        obtain ⟨p, hp0, hp1⟩ := inL q hq
        exact h3 p hp0 (hp1.trans (q1.trans hn))
  · intro z hz f hf hs hn
    obtain ⟨m, hm', rfl⟩ := List.mem_map.1 hz
    obtain ⟨q, hq, q1, q2⟩ := right m hm' f hf hs hn
    obtain ⟨p, hp0, hp1⟩ := inL q hq
    obtain ⟨a, y, b, g1, g2, g3⟩ := last_split (f := fun x : JMember => x.1 == m.1) hp0 (by simp [hp1, q1])
    have g2 : y.1 = m.1 := by simpa using g2
    have hl := lastV_split g1 g2 (fun z hz => by simpa using g3 z hz)
    have hy : y ∈ ps0 := by rw [g1]; simp
    have hny : f.jsonName = y.1 := hn.trans g2.symm
    obtain ⟨q', hq', q1', q2'⟩ := left y hy f hf hs hny
    have := pairwise_unique hp hq hq' (q1.trans (g2.symm.trans q1'.symm))
    subst this
    show JsonMeans env fl f.readTy m.2 ((lastV ps0 m.1).getD .unit)
    rw [hl, ← q2]
    exact hR q hq f hf hs (hn.trans q1.symm) _ (q2' ▸ hm y hy f hf hs hny)


theorem JDurMembers.swap {a b : JTree × JTree} {s n : Nat} (h : JDurMembers [a, b] s n) : JDurMembers [b, a] s n := by
  unfold JDurMembers at *
  rcases h with h | h | h
  · injection h with h1 h2; injection h2 with h2 _; subst h1; subst h2; exact .inr (.inl rfl)
  · injection h with h1 h2; injection h2 with h2 _; subst h1; subst h2; exact .inl rfl
  · cases h.1

theorem str_inj : ∀ {ms ms' : List (List Char × JTree)}, objMembers ms = objMembers ms' → ms = ms'
  | [], [], _ => rfl
  | [], _ :: _, h => by cases h
  | _ :: _, [], h => by cases h
  | (a, b) :: ms, (a', b') :: ms', h => by
    simp only [objMembers, List.map_cons, List.cons.injEq, Prod.mk.injEq, JTree.str.injEq] at h
    rw [h.1.1, h.1.2, str_inj (ms := ms) (ms' := ms') h.2]

theorem objMembers_map (ps : List JMember) : ps.map (fun p => (JTree.str p.1, p.2.1)) = objMembers (ps.map fun p => (p.1, p.2.1)) := by
  simp [objMembers, List.map_map, Function.comp_def]

theorem variant_same {vars : List Variant} (h : DistinctVariants vars) {j j' : Nat} {v w : Variant} (hv : vars[j]? = some v)
    (hw : vars[j']? = some w) (hs : v.shape = .unit ↔ w.shape = .unit) (hn : v.jsonName = w.jsonName) : j = j' := by
  rcases Nat.lt_trichotomy j j' with h1 | h1 | h1
  · have := List.pairwise_iff_getElem.1 h j j' (List.getElem?_eq_some_iff.1 hv).1 (List.getElem?_eq_some_iff.1 hw).1 h1
    rw [(List.getElem?_eq_some_iff.1 hv).2, (List.getElem?_eq_some_iff.1 hw).2] at this
    exact absurd hn (this hs)
  · exact h1
  · have := List.pairwise_iff_getElem.1 h j' j (List.getElem?_eq_some_iff.1 hw).1 (List.getElem?_eq_some_iff.1 hv).1 h1
    rw [(List.getElem?_eq_some_iff.1 hv).2, (List.getElem?_eq_some_iff.1 hw).2] at this
    exact absurd hn.symm (this hs.symm)

/-- What a field gets, by the last member of its name. -/
theorem jfieldGets_iff {cd : Bool} {ps : List JMember} {f : Field} {w : Val} : JFieldGets cd ps f w ↔
    if f.skip = true then w = f.absentValue else
      match lastV ps f.jsonName with
      | some v => w = f.wrap v
      | none => f.mayBeAbsent cd ∧ w = f.absentValue := by
  unfold JFieldGets
  split
  · rfl
  · rcases Classical.em (∃ q ∈ ps, q.1 = f.jsonName) with ⟨q, hq, hn⟩ | hno
    · obtain ⟨a, y, b, g1, g2, g3⟩ := last_split (f := fun m : JMember => m.1 == f.jsonName) hq (by simp [hn])
      have g2 : y.1 = f.jsonName := by simpa using g2
      have hl := lastV_split g1 g2 (fun z hz => by simpa using g3 z hz)
      rw [hl]
      constructor
      · rintro (⟨a', p, b', h1, h2, h3, h4⟩ | ⟨h, _⟩)
        · have := lastV_split h1 h2 h3
          rw [hl] at this
          injection this with this
          rw [h4, this]
        · exact absurd hn (h q hq)
      · intro h
        exact .inl ⟨a, y, b, g1, g2, fun z hz => by simpa using g3 z hz, h⟩
    · have hl : lastV ps f.jsonName = none := by
        unfold lastV
        rw [List.find?_eq_none.2 fun q hq => by
          have : q.1 ≠ f.jsonName := fun e => hno ⟨q, List.mem_reverse.1 hq, e⟩
          simpa using this]
        rfl
      rw [hl]
      constructor
      · rintro (⟨a', p, b', h1, h2, _⟩ | ⟨_, h⟩)
        · exact absurd ⟨p, by rw [h1]; simp, h2⟩ hno
        · exact h
      · intro h
        exact .inr ⟨fun q hq e => hno ⟨q, hq, e⟩, h⟩

theorem lastV_skip {α : Type} {a b : List (List Char × α × Val)} {p : List Char × α × Val} {k : List Char} (h : p.1 ≠ k) :
    lastV (a ++ p :: b) k = lastV (a ++ b) k := by
  unfold lastV
  rw [List.reverse_append, List.reverse_append, List.reverse_cons, List.append_assoc, List.find?_append, List.find?_append,
    List.find?_append]
  have : [p].find? (fun p => p.1 == k) = none := by simp [h]
  rw [this, Option.none_or]

theorem lastV_none {α : Type} {ps : List (List Char × α × Val)} {k : List Char} (h : ∀ q ∈ ps, q.1 ≠ k) : lastV ps k = none := by
  unfold lastV
  rw [List.find?_eq_none.2 fun q hq => by simpa using h q (List.mem_reverse.1 hq)]
  rfl

theorem names_same {fs : List Field} (h : DistinctNames fs) {f g : Field} (hf : f ∈ fs) (hg : g ∈ fs) (sf : f.skip = false)
    (sg : g.skip = false) (e : f.jsonName = g.jsonName) : f = g := by
  induction fs with
  | nil => cases hf
  | cons x fs ih =>
    obtain ⟨h1, h2⟩ := List.pairwise_cons.1 h
    rcases List.mem_cons.1 hf with rfl | hf' <;> rcases List.mem_cons.1 hg with rfl | hg'
    · rfl
    · exact absurd e (h1 g hg' sf sg)
    · exact absurd e.symm (h1 f hf' sg sf)
    · exact ih h2 hf' hg'

/-- A member `null` of an `Option` field supplies what its absence does. -/
theorem null_same {cd : Bool} {fs : List Field} (hd : DistinctNames fs) {vs : List Val} {a b : List JMember} {f : Field} {J : JTree}
    (hf : f ∈ fs) (hn : f.NullIsAbsent cd) (hm : ∀ m ∈ a ++ b, m.1 ≠ f.jsonName) :
    JFieldsGet cd fs (a ++ (f.jsonName, J, .none) :: b) vs ↔ JFieldsGet cd fs (a ++ b) vs := by
  have hne : fs ≠ [] := fun h => by rw [h] at hf; cases hf
  obtain ⟨h1, h2, ⟨t, h3⟩, h4, h5⟩ := hn
  have key : ∀ g ∈ fs, ∀ w, JFieldGets cd (a ++ (f.jsonName, J, .none) :: b) g w ↔ JFieldGets cd (a ++ b) g w := by
    intro g hg w
    rw [jfieldGets_iff, jfieldGets_iff]
    split
    · rfl
    · rename_i hs
      have hs : g.skip = false := by simpa using hs
      rcases Classical.em (f.jsonName = g.jsonName) with e | e
      · cases names_same hd hf hg h1 hs e
        rw [lastV_split (a := a) (b := b) (p := (f.jsonName, J, .none)) rfl rfl
          (fun q hq => hm q (List.mem_append_right _ hq)), lastV_none hm]
        simp only [Field.wrap, h2, h5]
        exact ⟨fun h => ⟨h4, h⟩, fun h => h.2⟩
      · rw [lastV_skip e]
  unfold JFieldsGet
  constructor
  · rintro ⟨_, h6, h7⟩
    exact ⟨fun h => absurd h hne, h6, fun i g w hg hw => (key g (List.mem_of_getElem? hg) w).1 (h7 i g w hg hw)⟩
  · rintro ⟨_, h6, h7⟩
    exact ⟨fun h => absurd h hne, h6, fun i g w hg hw => (key g (List.mem_of_getElem? hg) w).2 (h7 i g w hg hw)⟩

theorem NullIsAbsent.readTy {cd : Bool} {f : Field} (h : f.NullIsAbsent cd) : ∃ t, f.readTy = .option t := by
  obtain ⟨_, h2, ⟨t, h3⟩, _⟩ := h
  exact ⟨t, by simp [Field.readTy, h2, h3]⟩

/-- Leaving out the member `null`. -/
theorem null_drop {cd : Bool} {fs : List Field} (hd : DistinctNames fs) {vs : List Val} {ps0 : List JMember}
    {a b : List (List Char × JTree)} {f : Field} (hf : f ∈ fs) (hn : f.NullIsAbsent cd) (hm : ∀ m ∈ a ++ b, m.1 ≠ f.jsonName)
    (e : ps0.map (fun p => (p.1, p.2.1)) = a ++ (f.jsonName, .null) :: b) (hg : JFieldsGet cd fs ps0 vs)
    (hr : ∀ p ∈ ps0, ∀ f ∈ fs, f.skip = false → f.jsonName = p.1 → JsonMeans env fl f.readTy p.2.1 p.2.2) :
    ∃ qs : List JMember, qs.map (fun p => (p.1, p.2.1)) = a ++ b ∧ JFieldsGet cd fs qs vs ∧
      ∀ p ∈ qs, ∀ f ∈ fs, f.skip = false → f.jsonName = p.1 → JsonMeans env fl f.readTy p.2.1 p.2.2 := by
  obtain ⟨pa, pr, rfl, ea, er⟩ := List.map_eq_append_iff.1 e
  obtain ⟨⟨k, J, v⟩, pb, rfl, ek, eb⟩ := List.map_eq_cons_iff.1 er
  injection ek with ek eJ
  have hv : v = .none := by
    have := hr (k, J, v) (by simp) f hf hn.1 ek.symm
    obtain ⟨t, ht⟩ := NullIsAbsent.readTy hn
    rw [ht] at this
    have hJ : J = .null := eJ
    subst hJ
    generalize hJ : JTree.null = K at this
    cases this with
    | none => rfl
    | some h _ => exact absurd hJ.symm h
  have ek : k = f.jsonName := ek
  subst ek
  subst hv
  have hm' : ∀ m ∈ pa ++ pb, m.1 ≠ f.jsonName := by
    intro m hm1
    have : (m.1, m.2.1) ∈ a ++ b := by
      rw [← ea, ← eb, ← List.map_append]; exact List.mem_map.2 ⟨m, hm1, rfl⟩
    exact hm _ this
  refine ⟨pa ++ pb, by rw [List.map_append, ea, eb], (null_same hd hf hn hm').1 hg, fun p hp => hr p ?_⟩
  rcases List.mem_append.1 hp with h | h <;> simp [h]

/-- Putting in the member `null`. -/
theorem null_add {cd : Bool} {fs : List Field} (hd : DistinctNames fs) {vs : List Val} {ps0 : List JMember}
    {a b : List (List Char × JTree)} {f : Field} (hf : f ∈ fs) (hn : f.NullIsAbsent cd) (hm : ∀ m ∈ a ++ b, m.1 ≠ f.jsonName)
    (e : ps0.map (fun p => (p.1, p.2.1)) = a ++ b) (hg : JFieldsGet cd fs ps0 vs)
    (hr : ∀ p ∈ ps0, ∀ f ∈ fs, f.skip = false → f.jsonName = p.1 → JsonMeans env fl f.readTy p.2.1 p.2.2) :
    ∃ qs : List JMember, qs.map (fun p => (p.1, p.2.1)) = a ++ (f.jsonName, .null) :: b ∧ JFieldsGet cd fs qs vs ∧
      ∀ p ∈ qs, ∀ f ∈ fs, f.skip = false → f.jsonName = p.1 → JsonMeans env fl f.readTy p.2.1 p.2.2 := by
  obtain ⟨pa, pb, rfl, ea, eb⟩ := List.map_eq_append_iff.1 e
  have hm' : ∀ m ∈ pa ++ pb, m.1 ≠ f.jsonName := by
    intro m hm1
    have : (m.1, m.2.1) ∈ a ++ b := by
      rw [← ea, ← eb, ← List.map_append]; exact List.mem_map.2 ⟨m, hm1, rfl⟩
    exact hm _ this
  refine ⟨pa ++ (f.jsonName, .null, .none) :: pb, by rw [List.map_append, List.map_cons, ea, eb], (null_same hd hf hn hm').2 hg, ?_⟩
  intro p hp g hg' hs hnm
  rcases List.mem_append.1 hp with h | h
  · exact hr p (List.mem_append_left _ h) g hg' hs hnm
  · rcases List.mem_cons.1 h with rfl | h
    · cases names_same hd hf hg' hn.1 hs hnm.symm
      obtain ⟨t, ht⟩ := NullIsAbsent.readTy hn
      rw [ht]
      exact .none
    · exact hr p (List.mem_append_right _ h) g hg' hs hnm

/-- The last value of a key does not depend on the order of entries with different keys. -/
theorem lastWins_perm {es es' r : List Val} (h : es.Perm es') (hE : AllEntries es) (hp : es.Pairwise (fun a b => a.key ≠ b.key))
    (hl : LastWins es r) : LastWins es' r :=
  ⟨hl.1, fun k => by rw [hl.2, lastVal_perm h hE hp]⟩

theorem JReadAlike.symm {t : Ty} {J J' : JTree} (h : JReadAlike env fl t J J') : JReadAlike env fl t J' J :=
  ⟨h.1.symm, fun v => (h.2 v).symm⟩

theorem JRearranged.means {B : Ty → JTree → JTree → Prop} (hB : ∀ t J J', B t J J' → JReadAlike env fl t J J')
    (hd : DistinctProg env) {t : Ty} {J J' : JTree} (h : JRearranged env B t J J') :
    ∀ v, JsonMeans env fl t J v → JsonMeans env fl t J' v := by
  induction h with
  | refl => exact fun v h => h
  | swap h => exact fun v hv => ((hB _ _ _ h).2 v).1 hv
  | @dur a b tr tr' =>
    intro v h
    generalize hJ : JTree.obj [a, b] tr = J at h
    cases h with
    | dur h1 h2 h3 => cases hJ; exact .dur h1.swap h2 h3
  | @time a b tr tr' =>
    intro v h
    generalize hJ : JTree.obj [a, b] tr = J at h
    cases h with
    | epoch => cases hJ
    | time h1 h2 h3 => cases hJ; exact .time h1.swap h2 h3
  | @option t J J' h ih =>
    intro v hv
    cases hv with
    | none =>
      rcases Classical.em (J' = .null) with rfl | hn
      · exact .none
      · exact absurd rfl (h.symm.not_null (fun t J J' h => (hB t J' J h).symm) hn)
    | some hn hm => exact .some (h.not_null hB hn) (ih _ hm)
  | box _ ih => intro v hv; cases hv with | box hv => exact .box (ih _ hv)
  | @seq c t tr tr' ps hc _ ih =>
    intro v h
    have go : ∀ qs : List (JTree × Val), qs.map (·.1) = ps.map (·.1) → (∀ q ∈ qs, JsonMeans env fl t q.1 q.2) →
        ∃ rs : List (JTree × Val), rs.map (·.1) = ps.map (·.2) ∧ rs.map (·.2) = qs.map (·.2) ∧ ∀ r ∈ rs, JsonMeans env fl t r.1 r.2 :=
      fun qs e hq => carry (R := fun J v => JsonMeans env fl t J v) ps qs e ih hq
    generalize hJ : JTree.arr (ps.map (·.1)) tr = J at h
    rcases hc with rfl | rfl | rfl | rfl | rfl
    · cases h with
      | vec qs hq =>
        injection hJ with e _
        obtain ⟨rs, r1, r2, r3⟩ := go qs e.symm hq
        rw [← r1, ← r2]; exact .vec rs r3
    · cases h with
      | linked qs hq =>
        injection hJ with e _
        obtain ⟨rs, r1, r2, r3⟩ := go qs e.symm hq
        rw [← r1, ← r2]; exact .linked rs r3
    · cases h with
      | hset qs hq =>
        injection hJ with e _
        obtain ⟨rs, r1, r2, r3⟩ := go qs e.symm hq
        rw [← r1, ← r2]; exact .hset rs r3
    · cases h with
      | bset qs hq hs =>
        injection hJ with e _
        obtain ⟨rs, r1, r2, r3⟩ := go qs e.symm hq
        rw [← r1]; exact .bset rs r3 (r2 ▸ hs)
    · cases h with
      | array qs hl hq =>
        injection hJ with e _
        obtain ⟨rs, r1, r2, r3⟩ := go qs e.symm hq
        rw [← r1, ← r2]
        refine .array rs ?_ r3
        have := congrArg List.length r1
        simpa using this
  | @tuple c tr tr' ps hc _ ih =>
    intro v h
    have go : ∀ qs : List (Ty × JTree × Val), qs.map (·.1) = ps.map (·.1) → qs.map (·.2.1) = ps.map (·.2.1) →
        (∀ q ∈ qs, JsonMeans env fl q.1 q.2.1 q.2.2) → ∃ rs : List (Ty × JTree × Val), rs.map (·.1) = ps.map (·.1) ∧
        rs.map (·.2.1) = ps.map (·.2.2) ∧ rs.map (·.2.2) = qs.map (·.2.2) ∧ ∀ r ∈ rs, JsonMeans env fl r.1 r.2.1 r.2.2 :=
      fun qs et e hq => carryT ps qs et e ih hq
    generalize hJ : JTree.arr (ps.map (·.2.1)) tr = J at h
    rcases hc with ⟨a, b, rfl, he⟩ | ⟨a, b, d, rfl, he⟩ | ⟨a, b, d, e, rfl, he⟩ | ⟨i, trans, rfl, he, hl⟩
    · cases h with
      | pair qs ht hq =>
        injection hJ with e _
        obtain ⟨rs, r0, r1, r2, r3⟩ := go qs (ht.trans he.symm) e.symm hq
        rw [← r1, ← r2]; exact .pair rs (r0.trans he) r3
    · cases h with
      | triple qs ht hq =>
        injection hJ with e _
        obtain ⟨rs, r0, r1, r2, r3⟩ := go qs (ht.trans he.symm) e.symm hq
        rw [← r1, ← r2]; exact .triple rs (r0.trans he) r3
    · cases h with
      | quad qs ht hq =>
        injection hJ with e' _
        obtain ⟨rs, r0, r1, r2, r3⟩ := go qs (ht.trans he.symm) e'.symm hq
        rw [← r1, ← r2]; exact .quad rs (r0.trans he) r3
    · have hlen : 2 ≤ (ps.map (·.1)).length := by simpa using hl
      cases h with
      | struct _ h => rw [he] at h; cases h
      | noFields h => cases hJ
      | transparent h _ => rw [he] at h; injection h with h; injection h with h _; rw [h] at hlen; simp at hlen
      | newtype h _ => rw [he] at h; injection h with h; injection h with h _; rw [h] at hlen; simp at hlen
      | tupleStruct qs h _ hq =>
        rw [he] at h; injection h with h; injection h with h ht
        injection hJ with e _
        obtain ⟨rs, r0, r1, r2, r3⟩ := go qs h.symm e.symm hq
        rw [← r1, ← r2]
        refine .tupleStruct rs (by rw [r0]; exact he) ?_ r3
        have := congrArg List.length r0
        simp only [List.length_map] at this hlen
        omega
      | variant h => cases hJ
      | tupleVariant _ h => cases hJ
      | structVariant _ h => cases hJ
  | @map c k t tr tr' ps hc _ _ ih1 ih2 =>
    intro v h
    have go : ∀ (ps : List ((JTree × JTree) × (JTree × JTree))) (qs : List ((JTree × Val) × (JTree × Val))),
        (∀ p ∈ ps, ∀ v, JsonMeans env fl k p.1.1 v → JsonMeans env fl k p.1.2 v) →
        (∀ p ∈ ps, ∀ v, JsonMeans env fl t p.2.1 v → JsonMeans env fl t p.2.2 v) →
        qs.map (fun p => (p.1.1, p.2.1)) = ps.map (fun p => (p.1.1, p.2.1)) →
        (∀ q ∈ qs, JsonMeans env fl k q.1.1 q.1.2) → (∀ q ∈ qs, JsonMeans env fl t q.2.1 q.2.2) →
        ∃ rs : List ((JTree × Val) × (JTree × Val)), rs.map (fun p => (p.1.1, p.2.1)) = ps.map (fun p => (p.1.2, p.2.2)) ∧
          rs.map (fun p => (p.1.2, p.2.2)) = qs.map (fun p => (p.1.2, p.2.2)) ∧
          (∀ q ∈ rs, JsonMeans env fl k q.1.1 q.1.2) ∧ ∀ q ∈ rs, JsonMeans env fl t q.2.1 q.2.2 := by
      intro ps
      induction ps with
      | nil =>
        intro qs _ _ e _ _
        cases qs with
        | nil => exact ⟨[], rfl, rfl, by simp, by simp⟩
        | cons q qs => cases e
      | cons p ps ih =>
        intro qs i1 i2 e h1 h2
        cases qs with
        | nil => cases e
        | cons q qs =>
          simp only [List.map_cons, List.cons.injEq, Prod.mk.injEq] at e
          obtain ⟨rs, r1, r2, r3, r4⟩ := ih qs (fun p hp => i1 p (List.mem_cons_of_mem _ hp)) (fun p hp => i2 p (List.mem_cons_of_mem _ hp))
            e.2 (fun q hq => h1 q (List.mem_cons_of_mem _ hq)) (fun q hq => h2 q (List.mem_cons_of_mem _ hq))
          refine ⟨((p.1.2, q.1.2), (p.2.2, q.2.2)) :: rs, by simp [r1], by simp [r2], ?_, ?_⟩
          · intro r hr
            rcases List.mem_cons.1 hr with rfl | hr
            · exact i1 p List.mem_cons_self _ (e.1.1 ▸ h1 q List.mem_cons_self)
            · exact r3 r hr
          · intro r hr
            rcases List.mem_cons.1 hr with rfl | hr
            · exact i2 p List.mem_cons_self _ (e.1.2 ▸ h2 q List.mem_cons_self)
            · exact r4 r hr
    generalize hJ : JTree.obj (ps.map fun p => (p.1.1, p.2.1)) tr = J at h
    have e1 : ∀ {xs ys : List ((JTree × Val) × (JTree × Val))}, xs.map (fun p => (p.1.2, p.2.2)) = ys.map (fun p => (p.1.2, p.2.2)) →
        xs.map (fun p => Val.entry p.1.2 p.2.2) = ys.map (fun p => Val.entry p.1.2 p.2.2) ∧
        xs.map (fun p => p.1.2) = ys.map (fun p => p.1.2) := by
      intro xs ys h
      have h1 := congrArg (List.map fun p : Val × Val => Val.entry p.1 p.2) h
      have h2 := congrArg (List.map fun p : Val × Val => p.1) h
      simp only [List.map_map, Function.comp_def] at h1 h2
      exact ⟨h1, h2⟩
    rcases hc with rfl | rfl
    · cases h with
      | hmap qs h1 h2 h3 h4 =>
        injection hJ with e _
        obtain ⟨rs, r1, r2, r3, r4⟩ := go ps qs ih1 ih2 e.symm h1 h2
        rw [← r1]
        exact .hmap rs r3 r4 ((e1 r2).1 ▸ h3) ((e1 r2).2 ▸ h4)
    · cases h with
      | bmap qs h1 h2 h3 h4 =>
        injection hJ with e _
        obtain ⟨rs, r1, r2, r3, r4⟩ := go ps qs ih1 ih2 e.symm h1 h2
        rw [← r1]
        exact .bmap rs r3 r4 ((e1 r2).1 ▸ h3) h4
  | @transparent i t J J' he _ ih =>
    intro v h
    cases h with
    | struct _ h => rw [he] at h; cases h
    | noFields h => rw [he] at h; cases h
    | transparent h hm => rw [he] at h; cases h; exact .transparent he (ih _ hm)
    | newtype h _ => rw [he] at h; cases h
    | tupleStruct qs h hl hq =>
      rw [he] at h; injection h with h; injection h with h ht
      have := congrArg List.length h
      simp only [List.length_map, List.length_singleton] at this; omega
    | variant h => rw [he] at h; cases h
    | tupleVariant _ h => rw [he] at h; cases h
    | structVariant _ h => rw [he] at h; cases h
  | @newtype i t J J' he _ ih =>
    intro v h
    generalize hJ : JTree.arr [J] false = K at h
    cases h with
    | struct _ h => rw [he] at h; cases h
    | noFields h => rw [he] at h; cases h
    | transparent h hm => rw [he] at h; cases h
    | newtype h hm => rw [he] at h; cases h; cases hJ; exact .newtype he (ih _ hm)
    | tupleStruct qs h hl hq =>
      rw [he] at h; injection h with h; injection h with h ht
      have := congrArg List.length h
      simp only [List.length_map, List.length_singleton] at this; omega
    | variant h => rw [he] at h; cases h
    | tupleVariant _ h => rw [he] at h; cases h
    | structVariant _ h => rw [he] at h; cases h
  | @struct i fs cd nul tr tr' ms ms' ps us us' he hne hp h1 h2 u1 u2 _ ih =>
    intro v h
    generalize hJ : JTree.obj (objMembers ms) tr = K at h
    cases h with
    | struct ps0 h hg hm =>
      rw [he] at h; cases h
      injection hJ with e _
      rw [objMembers_map] at e
      obtain ⟨qs, q1, q2, q3⟩ := members_same hne hp h1 h2 u1 u2 ih (str_inj e).symm hg hm
      rw [← q1, ← objMembers_map]
      exact .struct qs he q2 q3
    | noFields h => rw [he] at h; cases h
    | transparent h hm => rw [he] at h; cases h
    | newtype h hm => rw [he] at h; cases h
    | tupleStruct qs h hl hq => rw [he] at h; cases h
    | variant h => rw [he] at h; cases h
    | tupleVariant _ h => rw [he] at h; cases h
    | structVariant _ h => rw [he] at h; cases h
  | @structVariant i j vars fs tr tr' var ms ms' ps us us' he hv hs hne hp h1 h2 u1 u2 _ ih =>
    intro v h
    generalize hJ : JTree.obj [(.str var.jsonName, .obj (objMembers ms) tr)] false = K at h
    cases h with
    | struct ps0 h => rw [he] at h; cases h
    | noFields h => rw [he] at h; cases h
    | transparent h hm => rw [he] at h; cases h
    | newtype h hm => rw [he] at h; cases h
    | tupleStruct qs h hl hq => rw [he] at h; cases h
    | variant h => cases hJ
    | tupleVariant _ h => injection hJ with e _; injection e with e _; injection e with _ e; cases e
    | structVariant ps0 h hv' hs' hg hm =>
      rw [he] at h; cases h
      injection hJ with e _
      simp only [List.cons.injEq, Prod.mk.injEq, JTree.str.injEq, JTree.obj.injEq, and_true] at e
      obtain ⟨en, e, _⟩ := e
      cases variant_same (hd.variants i vars he) hv hv' (by rw [hs, hs']; simp) en
      rw [hv] at hv'; cases hv'
      rw [hs] at hs'; cases hs'
      rw [objMembers_map] at e
      obtain ⟨qs, q1, q2, q3⟩ := members_same hne hp h1 h2 u1 u2 ih (str_inj e).symm hg hm
      rw [← q1, ← objMembers_map]
      exact .structVariant qs he hv hs q2 q3
  | @tupleVariant i j vars tr tr' var ps he hv hs _ ih =>
    intro v h
    generalize hJ : JTree.obj [(.str var.jsonName, .arr (ps.map (·.2.1)) tr)] false = K at h
    cases h with
    | struct ps0 h => rw [he] at h; cases h
    | noFields h => rw [he] at h; cases h
    | transparent h hm => rw [he] at h; cases h
    | newtype h hm => rw [he] at h; cases h
    | tupleStruct qs h hl hq => rw [he] at h; cases h
    | variant h => cases hJ
    | structVariant _ h => injection hJ with e _; injection e with e _; injection e with _ e; cases e
    | tupleVariant qs h hv' hs' hq =>
      rw [he] at h; cases h
      injection hJ with e _
      simp only [List.cons.injEq, Prod.mk.injEq, JTree.str.injEq, JTree.arr.injEq, and_true] at e
      obtain ⟨en, e, _⟩ := e
      cases variant_same (hd.variants i vars he) hv hv' (by rw [hs, hs']; simp) en
      rw [hv] at hv'; cases hv'
      rw [hs] at hs'
      injection hs' with hs'
      obtain ⟨rs, r0, r1, r2, r3⟩ := carryT ps qs hs'.symm e.symm ih hq
      rw [← r1, ← r2]
      exact .tupleVariant rs he hv (by rw [r0]; exact hs) r3
  | @dropNull i fs cd nul tr tr' f a b he hf hn hm =>
    intro v h
    generalize hJ : JTree.obj (objMembers (a ++ (f.jsonName, .null) :: b)) tr = K at h
    cases h with
    | struct ps0 h hg hr =>
      rw [he] at h; cases h
      injection hJ with e _
      rw [objMembers_map] at e
      obtain ⟨qs, q1, q2, q3⟩ := null_drop (hd.fields i fs cd nul he) hf hn hm (str_inj e).symm hg hr
      rw [← q1, ← objMembers_map]
      exact .struct qs he q2 q3
    | noFields h => rw [he] at h; cases h
    | transparent h hm => rw [he] at h; cases h
    | newtype h hm => rw [he] at h; cases h
    | tupleStruct qs h hl hq => rw [he] at h; cases h
    | variant h => rw [he] at h; cases h
    | tupleVariant _ h => rw [he] at h; cases h
    | structVariant _ h => rw [he] at h; cases h
  | @addNull i fs cd nul tr tr' f a b he hf hn hm =>
    intro v h
    generalize hJ : JTree.obj (objMembers (a ++ b)) tr = K at h
    cases h with
    | struct ps0 h hg hr =>
      rw [he] at h; cases h
      injection hJ with e _
      rw [objMembers_map] at e
      obtain ⟨qs, q1, q2, q3⟩ := null_add (hd.fields i fs cd nul he) hf hn hm (str_inj e).symm hg hr
      rw [← q1, ← objMembers_map]
      exact .struct qs he q2 q3
    | noFields h => rw [he] at h; cases h
    | transparent h hm => rw [he] at h; cases h
    | newtype h hm => rw [he] at h; cases h
    | tupleStruct qs h hl hq => rw [he] at h; cases h
    | variant h => rw [he] at h; cases h
    | tupleVariant _ h => rw [he] at h; cases h
    | structVariant _ h => rw [he] at h; cases h
  | @dropNullVariant i j vars fs tr tr' var f a b he hv hs hf hn hm =>
    intro v h
    generalize hJ : JTree.obj [(.str var.jsonName, .obj (objMembers (a ++ (f.jsonName, .null) :: b)) tr)] false = K at h
    cases h with
    | struct ps0 h => rw [he] at h; cases h
    | noFields h => rw [he] at h; cases h
    | transparent h hm => rw [he] at h; cases h
    | newtype h hm => rw [he] at h; cases h
    | tupleStruct qs h hl hq => rw [he] at h; cases h
    | variant h => cases hJ
    | tupleVariant _ h => injection hJ with e _; injection e with e _; injection e with _ e; cases e
    | structVariant ps0 h hv' hs' hg hr =>
      rw [he] at h; cases h
      injection hJ with e _
      simp only [List.cons.injEq, Prod.mk.injEq, JTree.str.injEq, JTree.obj.injEq, and_true] at e
      obtain ⟨en, e, _⟩ := e
      cases variant_same (hd.variants i vars he) hv hv' (by rw [hs, hs']; simp) en
      rw [hv] at hv'; cases hv'
      rw [hs] at hs'; cases hs'
      rw [objMembers_map] at e
      obtain ⟨qs, q1, q2, q3⟩ := null_drop (hd.varFields i vars he var (List.mem_of_getElem? hv) fs hs) hf hn hm (str_inj e).symm hg hr
      rw [← q1, ← objMembers_map]
      exact .structVariant qs he hv hs q2 q3
  | @addNullVariant i j vars fs tr tr' var f a b he hv hs hf hn hm =>
    intro v h
    generalize hJ : JTree.obj [(.str var.jsonName, .obj (objMembers (a ++ b)) tr)] false = K at h
    cases h with
    | struct ps0 h => rw [he] at h; cases h
    | noFields h => rw [he] at h; cases h
    | transparent h hm => rw [he] at h; cases h
    | newtype h hm => rw [he] at h; cases h
    | tupleStruct qs h hl hq => rw [he] at h; cases h
    | variant h => cases hJ
    | tupleVariant _ h => injection hJ with e _; injection e with e _; injection e with _ e; cases e
    | structVariant ps0 h hv' hs' hg hr =>
      rw [he] at h; cases h
      injection hJ with e _
      simp only [List.cons.injEq, Prod.mk.injEq, JTree.str.injEq, JTree.obj.injEq, and_true] at e
      obtain ⟨en, e, _⟩ := e
      cases variant_same (hd.variants i vars he) hv hv' (by rw [hs, hs']; simp) en
      rw [hv] at hv'; cases hv'
      rw [hs] at hs'; cases hs'
      rw [objMembers_map] at e
      obtain ⟨qs, q1, q2, q3⟩ := null_add (hd.varFields i vars he var (List.mem_of_getElem? hv) fs hs) hf hn hm (str_inj e).symm hg hr
      rw [← q1, ← objMembers_map]
      exact .structVariant qs he hv hs q2 q3
  | @bset t xs ys tr tr' hp =>
    intro v h
    generalize hJ : JTree.arr xs tr = K at h
    cases h with
    | bset qs hq hs =>
      injection hJ with e _
      subst e
      obtain ⟨rs, hr, rfl⟩ := perm_map_inv _ hp
      exact .bset rs (fun p hp => hq p (hr.mem_iff.1 hp)) ⟨hs.1, fun x => (hs.2 x).trans (hr.map _).mem_iff.symm⟩
  | @bmap t tr tr' ms ms' hp hd' =>
    intro v h
    generalize hJ : JTree.obj (objMembers ms) tr = K at h
    cases h with
    | bmap qs h1 h2 h3 h4 =>
      injection hJ with e _
      have hp' : (qs.map fun p => (p.1.1, p.2.1)).Perm (objMembers ms') := by rw [← e]; exact hp.map _
      obtain ⟨rs, hr, e'⟩ := perm_map_inv _ hp'
      have hkey : ∀ q ∈ qs, ∃ s, q.1.1 = .str s ∧ q.1.2 = .str s := by
        intro q hq
        have := h1 q hq
        generalize hx : q.1.1 = x at this
        generalize hy : q.1.2 = y at this
        cases this with
        | str => exact ⟨_, rfl, rfl⟩
      have hdq : qs.Pairwise fun p q => p.1.1 ≠ q.1.1 := by
        have : (objMembers ms).Pairwise fun p q => p.1 ≠ q.1 :=
          List.pairwise_map.2 (hd'.imp fun h e => h (JTree.str.inj e))
        rw [e] at this
        exact (List.pairwise_map.1 this).imp fun h => h
      rw [e']
      refine .bmap rs (fun p hp => h1 p (hr.mem_iff.1 hp)) (fun p hp => h2 p (hr.mem_iff.1 hp)) (lastWins_perm (hr.map _).symm ?_ ?_ h3) h4
      · intro w hw
        obtain ⟨q, _, rfl⟩ := List.mem_map.1 hw
        exact ⟨_, _, rfl⟩
      · refine List.pairwise_map.2 (List.Pairwise.imp_of_mem (fun {p q} hp hq hne => ?_) hdq)
        obtain ⟨a, a1, a2⟩ := hkey p hp
        obtain ⟨b, b1, b2⟩ := hkey q hq
        show p.1.2 ≠ q.1.2
        rw [a1, b1] at hne
        rw [a2, b2]
        intro h
        exact hne (by rw [Val.str.inj h])
  | @proxied i px J J' he _ ih =>
    intro v h
    cases h with
    | proxied h hm => rw [he] at h; cases h; exact .proxied he (ih _ hm)

end NS
