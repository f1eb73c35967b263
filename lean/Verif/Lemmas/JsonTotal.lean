import Verif.Lemmas.JsonRoundTrip
import Verif.Spec.Prog
/-! Decoding always has an outcome, on productive programs. -/
namespace NS
variable {env : Env} {fl : FloatOps}

/-- The outcome settles, and is not "out of fuel". -/
def Stable {α : Type} (f : Nat → Dec α) : Prop := ∃ n₀ r, r ≠ .oof ∧ ∀ n, n₀ ≤ n → f n = r

namespace Stable
variable {α β : Type}

theorem const {r : Dec α} (h : r ≠ .oof) : Stable fun _ => r := ⟨0, r, h, fun _ _ => rfl⟩
theorem ok (a : α) : Stable fun _ => Dec.ok a := const (by simp)
theorem err : Stable fun _ => (Dec.err : Dec α) := const (by simp)

theorem bind {f : Nat → Dec α} {g : Nat → α → Dec β} (hf : Stable f) (hg : ∀ a, Stable fun n => g n a) :
    Stable fun n => (f n).bind (g n) := by
  obtain ⟨n0, r, hr, h⟩ := hf
  cases r with
  | oof => exact absurd rfl hr
  | err => exact ⟨n0, .err, by simp, fun n hn => by simp only [h n hn]; rfl⟩
  | panic => exact ⟨n0, .panic, by simp, fun n hn => by simp only [h n hn]; rfl⟩
  | ok a =>
    obtain ⟨n1, r, hr', h'⟩ := hg a
    exact ⟨max n0 n1, r, hr', fun n hn => by simp only [h n (by omega)]; exact h' n (by omega)⟩

theorem succ {f : Nat → Dec α} (h : Stable fun n => f (n + 1)) : Stable f := by
  obtain ⟨n0, r, hr, h⟩ := h
  refine ⟨n0 + 1, r, hr, fun n hn => ?_⟩
  have := h (n - 1) (by omega)
  simp only at this
  rwa [show n - 1 + 1 = n by omega] at this

theorem foldD {γ : Type} {step : Nat → β → γ → Dec β} (xs : List γ)
    (h : ∀ x ∈ xs, ∀ acc, Stable fun n => step n acc x) (acc : β) : Stable fun n => NS.foldD (step n) acc xs := by
  induction xs generalizing acc with
  | nil => exact ok acc
  | cons x xs ih =>
    exact bind (h x (by simp) acc) fun a => ih (fun y hy => h y (by simp [hy])) a

end Stable

theorem decTys_stable {dec : Nat → Ty → Option JTree → Dec Val} (ts : List Ty) (xs : List JTree)
    (hs : ∀ t ∈ ts, ∀ x ∈ xs, Stable fun n => dec n t (some x)) (hn : ∀ t ∈ ts, Stable fun n => dec n t none) :
    Stable fun n => decTys (dec n) ts xs := by
  induction ts generalizing xs with
  | nil =>
    cases xs with
    | nil => exact .ok _
    | cons x xs => exact .err
  | cons t ts ih =>
    cases xs with
    | nil => exact .bind (hn t (by simp)) fun _ => .err
    | cons x xs =>
      exact .bind (hs t (by simp) x (by simp)) fun v =>
        .bind (ih xs (fun t ht x hx => hs t (by simp [ht]) x (by simp [hx])) fun t ht => hn t (by simp [ht])) fun vs => .ok _

theorem decTuple_stable {dec : Nat → Ty → Option JTree → Dec Val} (ts : List Ty) (o : Option JTree)
    (hs : ∀ t ∈ ts, ∀ x, (∃ y, o = some y ∧ sizeOf x < sizeOf y) → Stable fun n => dec n t (some x))
    (hn : ∀ t ∈ ts, (∃ y, o = some y) → Stable fun n => dec n t none) :
    Stable fun n => decTuple (dec n) ts o := by
  cases o with
  | none => exact .err
  | some J =>
    cases J with
    | arr xs tr =>
      refine decTys_stable ts xs (fun t ht x hx => hs t ht x ⟨_, rfl, ?_⟩) fun t ht => hn t ht ⟨_, rfl⟩
      have := List.sizeOf_lt_of_mem hx
      simp; omega
    | _ => exact .err

theorem decField_stable {dec : Nat → Ty → Option JTree → Dec Val} {f : Field} {J : JTree}
    (h : Stable fun n => dec n f.ty (some J)) (h' : ∀ t, f.ty = .option t → Stable fun n => dec n t (some J)) :
    Stable fun n => decField (dec n) f J := by
  unfold decField
  generalize f.optProxy = p
  generalize hT : f.ty = T at *
  cases p with
  | false => exact h
  | true =>
    cases T with
    | option t => exact .bind (h' t rfl) fun v => .ok _
    | _ => exact h

theorem decUnwrap_ne (cd : Bool) (fs : List Field) (acc : List (Option Val)) : decUnwrap cd fs acc ≠ .oof := by
  induction fs generalizing acc with
  | nil => simp [decUnwrap]
  | cons f fs ih =>
    cases acc with
    | nil => simp [decUnwrap]
    | cons o os =>
      unfold decUnwrap
      have key : ∀ v, ((decUnwrap cd fs os).bind fun vs => Dec.ok (v :: vs)) ≠ .oof := by
        intro v
        cases h : decUnwrap cd fs os with
        | oof => exact absurd h (ih os)
        | _ => simp [Dec.bind]
      cases (if f.skip = true then none else o) with
      | some v => exact key v
      | none =>
        simp only
        split
        · exact key _
        · simp

theorem JTree.obj_mem {ms : List (JTree × JTree)} {tr : Bool} {m : JTree × JTree} (h : m ∈ ms) :
    sizeOf m.1 < sizeOf (JTree.obj ms tr) ∧ sizeOf m.2 < sizeOf (JTree.obj ms tr) := by
  have := List.sizeOf_lt_of_mem h
  have e : sizeOf m = 1 + sizeOf m.1 + sizeOf m.2 := by cases m; rfl
  simp; omega

theorem decNamed_stable {dec : Nat → Ty → Option JTree → Dec Val} (cd : Bool) (fs : List Field) (o : Option JTree)
    (hs : ∀ f ∈ fs, ∀ t, t = f.ty ∨ f.ty = .option t → ∀ x, (∃ y, o = some y ∧ sizeOf x < sizeOf y) →
      Stable fun n => dec n t (some x)) :
    Stable fun n => decNamed (dec n) cd fs o := by
  cases o with
  | none => exact .err
  | some J =>
    cases J with
    | obj ms tr =>
      refine Stable.bind (Stable.foldD (step := fun n => decMember (dec n) fs) ms ?_ _) fun a => .const (decUnwrap_ne cd fs a)
      intro m hm acc
      obtain ⟨K, J⟩ := m
      have hsz := (JTree.obj_mem (tr := tr) hm).2
      unfold decMember
      cases K with
      | str key =>
        simp only
        by_cases hfs : fs.isEmpty = true
        · simp only [if_pos hfs]; exact .err
        · simp only [if_neg hfs]
          cases hff : findField fs key with
          | none => exact .ok _
          | some i =>
            have hi : fs.getD i { name := [], ty := .unit } ∈ fs := by
              have := (List.findIdx?_eq_some_iff_getElem.1 hff).1
              rw [List.getD_eq_getElem?_getD, List.getElem?_eq_getElem this]
              exact List.getElem_mem _
            exact Stable.bind (decField_stable (hs _ hi _ (.inl rfl) _ ⟨_, rfl, hsz⟩)
              fun t ht => hs _ hi _ (.inr ht) _ ⟨_, rfl, hsz⟩) fun v => .ok _
      | _ => exact .err
    | _ => exact .err

theorem Def.wf_of {d : Def} {i : Nat} (hw : ProgWf env) (hd : env.defs[i]? = some d) : ∀ t ∈ d.tys, TyWf env t :=
  hw.defs d (List.mem_of_getElem? hd)

theorem decDurMember_ne (acc : Option Nat × Option Nat) (m : JTree × JTree) : decDurMember acc m ≠ .oof := by
  have hn : ∀ k J, decNat k J ≠ .oof := by
    intro k J
    unfold decNat
    split
    · split <;> simp
    · simp
  unfold decDurMember
  split
  · split
    · split
      · simp
      · cases h : decNat u64Max m.2 with
        | oof => exact absurd h (hn _ _)
        | _ => simp [Dec.bind]
    · split
      · split
        · simp
        · cases h : decNat (2 ^ 32 - 1) m.2 with
          | oof => exact absurd h (hn _ _)
          | _ => simp [Dec.bind]
      · simp
  · simp

theorem decDur_ne (o : Option JTree) : decDur o ≠ .oof := by
  cases o with
  | none => simp [decDur]
  | some J =>
    cases J with
    | obj ms tr =>
      have hf : ∀ acc, foldD decDurMember acc ms ≠ .oof := by
        induction ms with
        | nil => simp [foldD]
        | cons m ms ih =>
          intro acc
          unfold foldD
          cases h : decDurMember acc m with
          | oof => exact absurd h (decDurMember_ne _ _)
          | ok a => exact ih a
          | _ => simp [Dec.bind]
      unfold decDur
      have hf := hf (none, none)
      simp only
      generalize foldD decDurMember (none, none) ms = d at *
      cases d with
      | oof => exact absurd rfl hf
      | ok a =>
        simp only [Dec.bind]
        split
        · simp
        · split
          · simp
          · split
            · simp
            · split <;> simp
      | _ => simp [Dec.bind]
    | _ => simp [decDur]

theorem decode_stable (hw : ProgWf env) (hp : Productive env) (o : Option JTree) (t : Ty) (ht : TyWf env t) :
    Stable fun n => decode env fl n t o := by
  obtain ⟨rank, r1, r2, r3, r4⟩ := hp
  generalize hso : sizeOf o = so
  generalize hrt : rank t = rt
  induction so using Nat.strongRecOn generalizing o t rt with
  | ind so ihs =>
  induction rt using Nat.strongRecOn generalizing t with
  | ind rt ihr =>
  subst hso hrt
  -- subtrees
  have sub : ∀ t x y, o = some y → sizeOf x < sizeOf y → TyWf env t → Stable fun n => decode env fl n t (some x) := by
    intro t x y ho hx ht
    subst ho
    exact ihs (sizeOf (some x)) (by simp; omega) (some x) t ht rfl (rank t) rfl
  have subn : ∀ t y, o = some y → TyWf env t → Stable fun n => decode env fl n t none := by
    intro t y ho ht
    subst ho
    refine ihs (sizeOf (none : Option JTree)) ?_ none t ht rfl (rank t) rfl
    have : 0 < sizeOf y := by cases y <;> simp <;> omega
    simp; omega
  have same : ∀ t', rank t' < rank t → TyWf env t' → Stable fun n => decode env fl n t' o := by
    intro t' hr ht'
    exact ihr (rank t') hr t' ht' rfl
  have seq : ∀ (t' : Ty) (ins : List Val → Val → List Val), TyWf env t' →
      Stable fun n => decSeq (fun acc x => (decode env fl n t' (some x)).bind fun v => .ok (ins acc v)) o := by
    intro t' ins ht'
    cases o with
    | none => exact .err
    | some J =>
      cases J with
      | arr xs tr =>
        refine Stable.bind (Stable.foldD (step := fun n acc x => (decode env fl n t' (some x)).bind fun v => .ok (ins acc v))
          xs ?_ _) fun a => .ok _
        intro x hx acc
        refine Stable.bind (sub t' x _ rfl ?_ ht') fun v => .ok _
        have := List.sizeOf_lt_of_mem hx
        simp; omega
      | _ => exact .err
  have map : ∀ (k t' : Ty) (ins : List Val → Val → List Val), TyWf env k → TyWf env t' →
      Stable fun n => decMap (fun acc m => (decode env fl n k (some m.1)).bind fun a =>
        (decode env fl n t' (some m.2)).bind fun b => .ok (ins acc (.entry a b))) o := by
    intro k t' ins hk ht'
    cases o with
    | none => exact .err
    | some J =>
      cases J with
      | obj ms tr =>
        refine Stable.bind (Stable.foldD (step := fun n acc m => (decode env fl n k (some m.1)).bind fun a =>
          (decode env fl n t' (some m.2)).bind fun b => .ok (ins acc (.entry a b))) ms ?_ _) fun a => .ok _
        intro m hm acc
        have := JTree.obj_mem (tr := tr) hm
        exact Stable.bind (sub k _ _ rfl this.1 hk) fun a => Stable.bind (sub t' _ _ rfl this.2 ht') fun b => .ok _
      | _ => exact .err
  have tup : ∀ ts : List Ty, (∀ t ∈ ts, TyWf env t) → Stable fun n => decTuple (decode env fl n) ts o := by
    intro ts hts
    exact decTuple_stable ts o (fun t ht x ⟨y, ho, hx⟩ => sub t x y ho hx (hts t ht))
      fun t ht ⟨y, ho⟩ => subn t y ho (hts t ht)
  have nmd : ∀ (cd : Bool) (fs : List Field) (o' : Option JTree), (∀ x : JTree, (∃ y, o' = some y ∧ sizeOf x < sizeOf y) →
      ∃ y, o = some y ∧ sizeOf x < sizeOf y) → (∀ f ∈ fs, TyWf env f.ty) →
      Stable fun n => decNamed (decode env fl n) cd fs o' := by
    intro cd fs o' hoo hfs
    refine decNamed_stable cd fs o' fun f hf t ht x hx => ?_
    obtain ⟨y, ho, hx⟩ := hoo x hx
    refine sub t x y ho hx ?_
    rcases ht with rfl | ht
    · exact hfs f hf
    · have := hfs f hf
      rw [ht] at this
      exact this
  apply Stable.succ
  cases t with
  | unit => refine .const ?_; split <;> simp
  | bool => refine .const ?_; split <;> simp
  | int k =>
    have hk : k.textual = true := ht
    simp only [decode, hk]
    refine .const ?_
    rw [if_neg (by simp)]
    split
    · split <;> simp
    · simp
  | f32 => refine .const ?_; split <;> simp
  | f64 => refine .const ?_; split <;> simp
  | str => refine .const ?_; split <;> simp
  | dur => exact Stable.bind (.const (decDur_ne o)) fun _ => .ok _
  | time =>
    have hd : Stable fun _ => (decDur o).bind fun d => if d.1 < 2 ^ 63 then Dec.ok (Val.time d.1 d.2) else .panic := by
      refine Stable.bind (g := fun _ d => if d.1 < 2 ^ 63 then Dec.ok (Val.time d.1 d.2) else .panic) (.const (decDur_ne o)) fun d => ?_
      by_cases h : d.1 < 2 ^ 63
      · simp only [if_pos h]; exact .ok _
      · simp only [if_neg h]; exact .const (by simp)
    cases o with
    | none => exact hd
    | some J =>
      cases J with
      | null => exact .ok _
      | _ => exact hd
  | option t =>
    have h := same t (r1 t) ht
    cases o with
    | none => exact .bind h fun _ => .ok _
    | some J =>
      cases J with
      | null => exact .ok _
      | _ => exact .bind h fun _ => .ok _
  | vec t => exact seq t _ ht
  | linked t => exact seq t _ ht
  | hset t => exact seq t _ ht
  | bset t => exact seq t _ ht
  | array t len =>
    exact Stable.bind (tup (List.replicate len t) fun t' h => by rw [List.eq_of_mem_replicate h]; exact ht) fun _ => .ok _
  | pair a b =>
    exact Stable.bind (tup [a, b] fun t' h => by
      simp only [List.mem_cons, List.not_mem_nil, or_false] at h
      rcases h with rfl | rfl
      · exact ht.1
      · exact ht.2) fun _ => .ok _
  | triple a b c =>
    exact Stable.bind (tup [a, b, c] fun t' h => by
      simp only [List.mem_cons, List.not_mem_nil, or_false] at h
      rcases h with rfl | rfl | rfl
      · exact ht.1
      · exact ht.2.1
      · exact ht.2.2) fun _ => .ok _
  | quad a b c d =>
    exact Stable.bind (tup [a, b, c, d] fun t' h => by
      simp only [List.mem_cons, List.not_mem_nil, or_false] at h
      rcases h with rfl | rfl | rfl | rfl
      · exact ht.1
      · exact ht.2.1
      · exact ht.2.2.1
      · exact ht.2.2.2) fun _ => .ok _
  | hmap k v => exact map k v _ ht.1 ht.2
  | bmap k v => exact map k v _ ht.1 ht.2
  | box t => exact .bind (same t (r2 t) ht) fun _ => .ok _
  | proxied i =>
    have hi : i < env.proxies.length := ht
    have he := List.getElem?_eq_getElem hi
    have hpx := hw.proxies env.proxies[i] (List.getElem_mem hi)
    have := r4 i _ he
    simp only [decode, he]
    exact .bind (same _ this hpx) fun _ => .ok _
  | named i =>
    have hi : i < env.defs.length := ht
    have he := List.getElem?_eq_getElem hi
    have hwd := Def.wf_of hw he
    simp only [decode, he]
    generalize hd : env.defs[i] = d at *
    cases d with
    | struct fs cd nul =>
      exact Stable.bind (nmd cd fs o (fun x hx => hx) fun f hf => hwd _ (by simp [Def.tys]; exact ⟨f, hf, rfl⟩)) fun _ => .ok _
    | tuple ts tr =>
      simp only [Def.tys] at hwd
      simp only
      match ts, tr, hwd, he with
      | [], tr, hwd, he =>
        refine .const ?_
        split <;> simp
      | [t], true, hwd, he => exact .bind (same t (r3 i t he) (hwd t (by simp))) fun _ => .ok _
      | [t], false, hwd, he =>
        unfold decTupleStruct
        cases o with
        | none => exact .err
        | some J =>
          cases J with
          | arr xs trail =>
            cases xs with
            | nil => exact .bind (subn t _ rfl (hwd t (by simp))) fun _ => .err
            | cons x xs =>
              refine .bind (sub t x _ rfl (by simp; omega) (hwd t (by simp))) fun v => ?_
              split
              · exact .ok _
              · exact .err
          | _ => exact .err
      | t :: t' :: ts, tr, hwd, he =>
        have : ∀ n, decTupleStruct (decode env fl n) (t :: t' :: ts) tr o =
          (decTuple (decode env fl n) (t :: t' :: ts) o).bind fun vs => .ok (.struct vs) := by
          intro n; cases tr <;> rfl
        simp only [this]
        exact .bind (tup _ hwd) fun _ => .ok _
    | enum vars =>
      simp only
      cases o with
      | none => exact .err
      | some J =>
        cases J with
        | str s =>
          refine .const ?_
          split <;> simp
        | obj ms trail =>
          cases ms with
          | nil => exact .err
          | cons m ms =>
            obtain ⟨K, J⟩ := m
            cases K with
            | str k =>
              have hJs : sizeOf J < _ := (JTree.obj_mem (ms := (.str k, J) :: ms) (tr := trail) (m := (.str k, J)) (by simp)).2
              have hsh : Stable fun n => decEnum (decode env fl n) vars (some (.obj ((.str k, J) :: ms) trail)) := by
                have body : Stable fun n => (match findVariant vars false k with
                    | some j => (decShape (decode env fl n) J (vars.getD j { name := [], shape := .unit }).shape).bind fun vs =>
                        if ms.isEmpty ∧ trail = false then Dec.ok (Val.variant j vs) else .err
                    | none => .err) := by
                  cases hfv : findVariant vars false k with
                  | none => exact .err
                  | some j =>
                    have hj := (List.findIdx?_eq_some_iff_getElem.1 hfv).1
                    have hg : vars.getD j { name := [], shape := .unit } = vars[j] := by
                      rw [List.getD_eq_getElem?_getD, List.getElem?_eq_getElem hj]; rfl
                    have hmem : vars[j] ∈ vars := List.getElem_mem _
                    simp only [hg]
                    refine .bind ?_ fun vs => ?_
                    · generalize hvr : vars[j] = vr at *
                      have hin : ∀ t, t ∈ (match vr.shape with
                          | .unit => []
                          | .tuple ts => ts
                          | .named fs => fs.map Field.ty) → TyWf env t := by
                        intro t ht
                        exact hwd t (List.mem_flatMap.2 ⟨vr, hmem, ht⟩)
                      cases hs : vr.shape with
                      | unit => exact .err
                      | tuple ts =>
                        rw [hs] at hin
                        refine decTuple_stable ts (some J) (fun t ht x ⟨y, ho, hx⟩ => ?_) fun t ht _ => subn t _ rfl (hin t ht)
                        injection ho with ho
                        subst ho
                        exact sub t x _ rfl (by omega) (hin t ht)
                      | named fs =>
                        rw [hs] at hin
                        refine nmd false fs (some J) (fun x ⟨y, ho, hx⟩ => ?_) fun f hf => hin _ (List.mem_map.2 ⟨f, hf, rfl⟩)
                        injection ho with ho
                        subst ho
                        exact ⟨_, rfl, by omega⟩
                    · split
                      · exact .ok _
                      · exact .err
                cases J with
                | arr a b => exact body
                | obj a b => exact body
                | _ => exact .err
              exact hsh
            | _ => exact .err
        | _ => exact .err

/-- What the text of `J` denotes at type `t`. -/
inductive JOutcome where
  | value (v : Val)
  | error
  | panic

/-- The settled outcome. -/
def Settles (env : Env) (fl : FloatOps) (t : Ty) (J : JTree) (r : Dec Val) : Prop :=
  r ≠ .oof ∧ ∃ n₀, ∀ n, n₀ ≤ n → decode env fl n t (some J) = r

theorem settles (hw : ProgWf env) (hp : Productive env) {t : Ty} (ht : TyWf env t) (J : JTree) :
    ∃ r, Settles env fl t J r := by
  obtain ⟨n0, r, hr, h⟩ := decode_stable (fl := fl) hw hp (some J) t ht
  exact ⟨r, hr, n0, h⟩

theorem Settles.unique {t J r r'} (h : Settles env fl t J r) (h' : Settles env fl t J r') : r = r' := by
  obtain ⟨_, n, h⟩ := h
  obtain ⟨_, m, h'⟩ := h'
  rw [← h (max n m) (by omega), h' (max n m) (by omega)]

/-- The text reader has that outcome. -/
theorem Settles.reads {t J r txt} (h : Settles env fl t J r) (ht : JText fl J txt) :
    ∃ n₀, ∀ n, n₀ ≤ n → Agree (deserializeJson env fl n t txt) r (fun s => s.tok = .eof) := by
  obtain ⟨_, n, h⟩ := h
  refine ⟨n + J.lexemes.length, fun m hm => ?_⟩
  have := deserializeJson_agree (env := env) ht t n m hm
  rwa [h n (Nat.le_refl _)] at this

theorem Decodes.unique {ε σ : Type} {f : Nat → Out ε σ Val} {v w : Val} (h : Decodes f v) (h' : Decodes f w) : v = w := by
  obtain ⟨n, h⟩ := h
  obtain ⟨m, h'⟩ := h'
  obtain ⟨s, e⟩ := h (max n m) (by omega)
  obtain ⟨s', e'⟩ := h' (max n m) (by omega)
  rw [e] at e'
  injection e'

theorem Settles.decodes {t J v txt} (h : Settles env fl t J (.ok v)) (ht : JText fl J txt) :
    Decodes (fun n => deserializeJson env fl n t txt) v := by
  obtain ⟨n, h⟩ := h.reads ht
  refine ⟨n, fun m hm => ?_⟩
  obtain ⟨s, e, _⟩ := h m hm
  exact ⟨s, e⟩

theorem Settles.rejects {t J txt} (h : Settles env fl t J .err) (ht : JText fl J txt) :
    Rejects (fun n => deserializeJson env fl n t txt) := by
  obtain ⟨n, h⟩ := h.reads ht
  exact ⟨n, fun m hm => h m hm⟩

theorem Settles.panics {t J txt} (h : Settles env fl t J .panic) (ht : JText fl J txt) :
    Panics (fun n => deserializeJson env fl n t txt) := by
  obtain ⟨n, h⟩ := h.reads ht
  exact ⟨n, fun m hm => h m hm⟩

/-- The converse, on productive programs. -/
theorem decodes_iff (hw : ProgWf env) (hp : Productive env) {t : Ty} (htw : TyWf env t) {J txt v}
    (ht : JText fl J txt) :
    Decodes (fun n => deserializeJson env fl n t txt) v ↔ Settles env fl t J (.ok v) := by
  refine ⟨fun h => ?_, fun h => h.decodes ht⟩
  obtain ⟨r, hr⟩ := settles (fl := fl) hw hp htw J
  obtain ⟨n, h⟩ := h
  obtain ⟨m, h'⟩ := hr.reads ht
  obtain ⟨s, e⟩ := h (max n m) (by omega)
  have := h' (max n m) (by omega)
  simp only at e
  rw [e] at this
  cases r with
  | ok w =>
    obtain ⟨s', e', _⟩ := this
    injection e' with e'
    subst e'
    exact hr
  | err => obtain ⟨_, _, h⟩ := this; cases h
  | panic => cases this
  | oof => exact absurd rfl hr.1

theorem rejects_iff (hw : ProgWf env) (hp : Productive env) {t : Ty} (htw : TyWf env t) {J txt}
    (ht : JText fl J txt) :
    Rejects (fun n => deserializeJson env fl n t txt) ↔ Settles env fl t J .err := by
  refine ⟨fun h => ?_, fun h => h.rejects ht⟩
  obtain ⟨r, hr⟩ := settles (fl := fl) hw hp htw J
  obtain ⟨n, h⟩ := h
  obtain ⟨m, h'⟩ := hr.reads ht
  obtain ⟨e1, s, e⟩ := h (max n m) (by omega)
  have := h' (max n m) (by omega)
  simp only at e
  rw [e] at this
  cases r with
  | ok w => obtain ⟨s', e', _⟩ := this; cases e'
  | err => exact hr
  | panic => cases this
  | oof => exact absurd rfl hr.1

end NS
