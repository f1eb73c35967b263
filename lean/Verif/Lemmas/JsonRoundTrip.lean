import Verif.Lemmas.JsonText
import Verif.Lemmas.JsonRefine4
import Verif.Lemmas.Bin
import Verif.Lemmas.BinRoundTrip
import Verif.Lemmas.JsonExactT
import Verif.Lemmas.Unknown
/-! The JSON round trip: what is written spells a tree that decodes to the value. -/
namespace NS
variable {env : Env} {fl : FloatOps}

/-- The text of `v` spells a tree that decodes to `v`, with known members only. -/
def JRound (env : Env) (fl : FloatOps) (t : Ty) (v : Val) : Prop :=
  ∃ J, Spells fl J (serJson env fl t v) ∧ ((J = .null → serJson env fl t v = ['n', 'u', 'l', 'l']) ∧ ¬ Trips env t J) ∧
    ∀ n, sizeOf v ≤ n → decode env fl n t (some J) = .ok v

/-! ## Sequences -/

theorem serJsonAll_eq (t : Ty) (vs : List Val) : serJsonAll env fl t vs = vs.map (serJson env fl t) := by
  induction vs with
  | nil => rfl
  | cons v vs ih => simp [serJsonAll, ih]

theorem foldD_append {α β : Type} (step : β → α → Dec β) (acc : β) (xs ys : List α) :
    foldD step acc (xs ++ ys) = (foldD step acc xs).bind fun a => foldD step a ys := by
  induction xs generalizing acc with
  | nil => rfl
  | cons x xs ih =>
    show (step acc x).bind _ = ((step acc x).bind _).bind _
    rw [Dec.bind_assoc]
    congr 1
    funext a
    exact ih a

theorem items_round {t : Ty} (vs : List Val) (h : ∀ v ∈ vs, JRound env fl t v) :
    ∃ xs : List JTree, xs.length = (serJsonAll env fl t vs).length ∧
      ((∀ p ∈ xs.zip (serJsonAll env fl t vs), Spells fl p.1 p.2) ∧ ∀ x ∈ xs, ¬ Trips env t x) ∧
      ∀ n, (∀ v ∈ vs, sizeOf v ≤ n) → ∀ (ins : List Val → Val → List Val) (acc : List Val),
        foldD (fun acc x => (decode env fl n t (some x)).bind fun v => .ok (ins acc v)) acc xs =
          .ok (vs.foldl ins acc) := by
  induction vs with
  | nil => exact ⟨[], rfl, by simp, fun n _ ins acc => rfl⟩
  | cons v vs ih =>
    obtain ⟨xs, h1, ⟨h2, h2'⟩, h3⟩ := ih fun w hw => h w (by simp [hw])
    obtain ⟨J, hs, hT, hd⟩ := h v (by simp)
    refine ⟨J :: xs, by simp [serJsonAll, h1], ⟨?_, List.forall_mem_cons.2 ⟨hT.2, h2'⟩⟩, ?_⟩
    · intro p hp
      simp only [serJsonAll, List.zip_cons_cons, List.mem_cons] at hp
      rcases hp with rfl | hp
      · exact hs
      · exact h2 p hp
    · intro n hn ins acc
      show ((decode env fl n t (some J)).bind _).bind _ = _
      rw [hd n (hn v (by simp))]
      exact h3 n (fun w hw => hn w (by simp [hw])) ins _

theorem entries_round {k t : Ty} (vs : List Val)
    (h : ∀ v ∈ vs, ∃ a b, v = .entry a b ∧ JRound env fl k a ∧ JRound env fl t b) :
    ∃ ms : List (JTree × JTree), ms.length = (serJsonEntries env fl k t vs).length ∧
      ((∀ p ∈ ms.zip (serJsonEntries env fl k t vs), MSpells fl p.1 p.2) ∧ ∀ m ∈ ms, ¬ Trips env k m.1 ∧ ¬ Trips env t m.2) ∧
      ∀ n, (∀ v ∈ vs, sizeOf v ≤ n + 1) → ∀ (ins : List Val → Val → List Val) (acc : List Val),
        foldD (fun acc m => (decode env fl n k (some m.1)).bind fun a =>
          (decode env fl n t (some m.2)).bind fun b => .ok (ins acc (.entry a b))) acc ms =
          .ok (vs.foldl ins acc) := by
  induction vs with
  | nil => exact ⟨[], rfl, by simp, fun n _ ins acc => rfl⟩
  | cons v vs ih =>
    obtain ⟨ms, h1, ⟨h2, h2'⟩, h3⟩ := ih fun w hw => h w (by simp [hw])
    obtain ⟨a, b, rfl, ⟨K, ks, kT, kd⟩, ⟨J, hs, hT, hd⟩⟩ := h v (by simp)
    refine ⟨(K, J) :: ms, by simp [serJsonEntries, h1], ⟨?_, List.forall_mem_cons.2 ⟨⟨kT.2, hT.2⟩, h2'⟩⟩, ?_⟩
    · intro p hp
      simp only [serJsonEntries, List.zip_cons_cons, List.mem_cons] at hp
      rcases hp with rfl | hp
      · exact .of ks hs
      · exact h2 p hp
    · intro n hn ins acc
      have := hn (.entry a b) (by simp)
      simp only [Val.entry.sizeOf_spec] at this
      show ((decode env fl n k (some K)).bind _).bind _ = _
      rw [kd n (by omega)]
      show ((decode env fl n t (some J)).bind _).bind _ = _
      rw [hd n (by omega)]
      exact h3 n (fun w hw => hn w (by simp [hw])) ins _

theorem tys_round (ts : List Ty) (vs : List Val) (hT : TysTy env ts vs)
    (h : ∀ p ∈ ts.zip vs, JRound env fl p.1 p.2) :
    ∃ xs : List JTree, xs.length = (serJsonTys env fl ts vs).length ∧
      ((∀ p ∈ xs.zip (serJsonTys env fl ts vs), Spells fl p.1 p.2) ∧ ∀ p ∈ ts.zip xs, ¬ Trips env p.1 p.2) ∧
      ∀ n, (∀ v ∈ vs, sizeOf v ≤ n) → decTys (decode env fl n) ts xs = .ok vs := by
  induction ts generalizing vs with
  | nil =>
    cases vs with
    | nil => exact ⟨[], rfl, by simp, fun n _ => rfl⟩
    | cons v vs => simp [TysTy] at hT
  | cons t ts ih =>
    cases vs with
    | nil => simp [TysTy] at hT
    | cons v vs =>
      simp only [TysTy] at hT
      obtain ⟨xs, h1, ⟨h2, h2'⟩, h3⟩ := ih vs hT.2 fun p hp => h p (by simp [hp])
      obtain ⟨J, hs, hJ, hd⟩ := h (t, v) (by simp)
      refine ⟨J :: xs, by simp [serJsonTys, h1], ⟨?_, List.forall_mem_cons.2 ⟨hJ.2, h2'⟩⟩, ?_⟩
      · intro p hp
        simp only [serJsonTys, List.zip_cons_cons, List.mem_cons] at hp
        rcases hp with rfl | hp
        · exact hs
        · exact h2 p hp
      · intro n hn
        show (decode env fl n t (some J)).bind _ = _
        rw [hd n (hn v (by simp))]
        show (decTys (decode env fl n) ts xs).bind _ = _
        rw [h3 n fun w hw => hn w (by simp [hw])]
        rfl

/-! ## Structs -/

/-- How the members of an object supply the fields of a struct. -/
inductive Placed (D : Field → JTree → Val → Prop) :
    List Field → List Val → List (JTree × JTree) → List (Option Val) → Prop where
  | nil : Placed D [] [] [] []
  | skip {f fs v vs ms os} : f.skip = true ∨ f.optSyn = true → v = f.absent → Placed D fs vs ms os →
      Placed D (f :: fs) (v :: vs) ms (none :: os)
  | put {f fs v vs ms os J} : f.skip = false → D f J v → Placed D fs vs ms os →
      Placed D (f :: fs) (v :: vs) ((.str f.key, J) :: ms) (some v :: os)

theorem findField_split {pre fs : List Field} {f : Field} (hs : f.skip = false)
    (hd : ((pre ++ f :: fs).filter fun f => !f.skip).Pairwise fun f g => f.key ≠ g.key) :
    findField (pre ++ f :: fs) f.key = some pre.length := by
  unfold findField
  rw [List.findIdx?_append, List.findIdx?_eq_none_iff.2, List.findIdx?_cons]
  · simp [hs]
  · intro g hg
    cases hgs : g.skip with
    | true => simp
    | false =>
      simp only [Bool.not_false, Bool.true_and, beq_eq_false_iff_ne]
      rw [List.filter_append, List.pairwise_append] at hd
      exact hd.2.2 g (by simp [hg, hgs]) f (by simp [hs])

theorem Placed.fold {D : Field → JTree → Val → Prop} {dec : Ty → Option JTree → Dec Val}
    (hD : ∀ f J v, D f J v → decField dec f J = .ok v) {pre fs : List Field} {vs ms os} {acc : List (Option Val)}
    (hacc : acc.length = pre.length)
    (hd : ((pre ++ fs).filter fun f => !f.skip).Pairwise fun f g => f.key ≠ g.key)
    (h : Placed D fs vs ms os) :
    foldD (decMember dec (pre ++ fs)) (acc ++ fs.map fun _ => none) ms = .ok (acc ++ os) := by
  induction h generalizing pre acc with
  | nil => simp [foldD]
  | @skip f fs v vs ms os h1 h2 h3 ih =>
    have := ih (pre := pre ++ [f]) (acc := acc ++ [none]) (by simp [hacc]) (by simpa using hd)
    simpa using this
  | @put f fs v vs ms os J h1 h2 h3 ih =>
    have := ih (pre := pre ++ [f]) (acc := acc ++ [some v]) (by simp [hacc]) (by simpa using hd)
    show (decMember dec (pre ++ f :: fs) _ (.str f.key, J)).bind _ = _
    have hm : decMember dec (pre ++ f :: fs) (acc ++ (f :: fs).map fun _ => none) (.str f.key, J) =
        .ok (acc ++ [some v] ++ fs.map fun _ => none) := by
      unfold decMember
      simp only
      rw [if_neg (by simp), findField_split h1 hd]
      simp only
      rw [show (pre ++ f :: fs).getD pre.length { name := [], ty := .unit } = f by simp]
      rw [hD _ _ _ h2]
      show Dec.ok _ = _
      congr 1
      rw [List.set_append_right _ _ (by omega), hacc]
      simp
    rw [hm]
    show foldD _ _ _ = _
    simpa using this

theorem Placed.unwrap {D : Field → JTree → Val → Prop} {cd : Bool} {fs vs ms os} (h : Placed D fs vs ms os) :
    decUnwrap cd fs os = .ok vs := by
  induction h with
  | nil => rfl
  | @skip f fs v vs ms os h1 h2 h3 ih =>
    unfold decUnwrap
    have : (if f.skip = true then none else (none : Option Val)) = none := by split <;> rfl
    rw [this]
    simp only
    rw [if_pos (by rcases h1 with h | h <;> simp [h]), ih, h2]
    rfl
  | @put f fs v vs ms os J h1 h2 h3 ih =>
    unfold decUnwrap
    rw [if_neg (by simp [h1])]
    simp only
    rw [ih]
    rfl

theorem Placed.named {D : Field → JTree → Val → Prop} {dec : Ty → Option JTree → Dec Val}
    (hD : ∀ f J v, D f J v → decField dec f J = .ok v) {fs vs ms os} {cd tr : Bool} (h : Placed D fs vs ms os)
    (hd : (fs.filter fun f => !f.skip).Pairwise fun f g => f.key ≠ g.key) :
    decNamed dec cd fs (some (.obj ms tr)) = .ok vs := by
  show (foldD _ _ ms).bind _ = _
  have := Placed.fold (pre := []) (acc := []) hD rfl (by simpa using hd) h
  simp only [List.nil_append] at this
  rw [this]
  exact h.unwrap

theorem Placed.members {D : Field → JTree → Val → Prop} (hD : ∀ f J v, D f J v → ¬ Trips env f.ty J) {fs vs ms os} (h : Placed D fs vs ms os) :
    Members env fs ms := by
  induction h with
  | nil => intro m hm; cases hm
  | skip h1 h2 h3 ih =>
    intro m hm
    obtain ⟨f, hf, h⟩ := ih m hm
    exact ⟨f, List.mem_cons_of_mem _ hf, h⟩
  | @put f fs v vs ms os J h1 h2 h3 ih =>
    intro m hm
    rcases List.mem_cons.1 hm with rfl | hm
    · exact ⟨f, List.mem_cons_self, h1, rfl, hD _ _ _ h2⟩
    · obtain ⟨f, hf, h⟩ := ih m hm
      exact ⟨f, List.mem_cons_of_mem _ hf, h⟩

/-- A value that is written, as a field. -/
theorem field_put {f : Field} {v : Val} (hp : f.optProxy = true → f.optSyn = true)
    (hT : HasTy env f.ty v)
    (hn : ¬ (f.optSyn = true ∧ v.isNone = true))
    (h : JRound env fl f.ty v)
    (hx : ∀ t' w', f.ty = .option t' → v = .some w' → serJson env fl t' w' ≠ ['n', 'u', 'l', 'l']) :
    ∃ J, Spells fl J (serJson env fl f.ty v) ∧ ¬ Trips env f.ty J ∧
      ∀ n, sizeOf v ≤ n → decField (decode env fl n) f J = .ok v := by
  obtain ⟨J, hs, ⟨hnull, hTr⟩, hd⟩ := h
  refine ⟨J, hs, hTr, fun n hn' => ?_⟩
  clear hTr
  unfold decField
  have hd1 := hd n hn'
  generalize hty : f.ty = T at *
  generalize hop : f.optProxy = p at *
  cases p with
  | false => exact hd1
  | true =>
    cases T with
    | option t =>
      simp only
      cases v <;> simp only [HasTy] at hT
      · exact absurd ⟨hp rfl, rfl⟩ hn
      rename_i w
      -- decode (option t) J = some w, J ≠ null
      have hJ : J ≠ .null := by
        intro hJ
        exact hx t w rfl rfl (hnull hJ)
      have key : ∀ m, sizeOf (Val.some w) ≤ m → ∃ m', m = m' + 1 ∧
          (decode env fl m' t (some J)).bind (fun v => .ok (Val.some v)) = .ok (.some w) := by
        intro m hm
        obtain ⟨m, rfl⟩ : ∃ k, m = k + 1 := ⟨m - 1, by simp at hm; omega⟩
        refine ⟨m, rfl, ?_⟩
        have := hd (m + 1) hm
        unfold decode at this
        cases J with
        | null => exact absurd rfl hJ
        | _ => exact this
      obtain ⟨m', e, h'⟩ := key (n + 1) (by omega)
      obtain rfl : n = m' := by omega
      exact h'
    | _ => exact hd1

theorem Holds.head {P dflt si t v} (h : Holds env P dflt si t v) : P t v := by
  unfold Holds at h
  split at h <;> first | exact h.1 | exact h

theorem JsonExactT.opt {t t' : Ty} {v w' : Val} (h : JsonExactT env fl t v) (e1 : t = .option t') (e2 : v = .some w') :
    serJson env fl t' w' ≠ ['n', 'u', 'l', 'l'] := (Holds.head h).2.2.2.2 t' w' e1 e2

theorem fields_round {nul : Bool} (fs : List Field) (vs : List Val) (N : Nat)
    (ih : ∀ v ∈ vs, sizeOf v ≤ N ∧ ∀ t, HasTy env t v → JsonExactT env fl t v → JRound env fl t v)
    (hT : FieldsTy env fs vs)
    (hH : HoldsFields env (JsonNodeOkT env fl) Field.absent false true fs vs)
    (hplain : ∀ f ∈ fs, f.skip = false → PlainName f.key)
    (hproxy : ∀ f ∈ fs, f.optProxy = true → f.optSyn = true)
    (hom : ∀ f ∈ fs, f.skip = false → f.optSyn = true →
      ((f.noneAsNull || nul) = true ∧ f.optProxy = false) ∨ f.absent = .none) :
    ∃ ms os, ms.length = (serJsonFields env fl nul fs vs).length ∧
      (∀ p ∈ ms.zip (serJsonFields env fl nul fs vs), MSpells fl p.1 p.2) ∧
      Placed (fun f J v => ¬ Trips env f.ty J ∧ ∀ n, N ≤ n → decField (decode env fl n) f J = .ok v) fs vs ms os := by
  induction fs generalizing vs with
  | nil =>
    cases vs with
    | nil => exact ⟨[], [], rfl, by simp, .nil⟩
    | cons v vs => simp [FieldsTy] at hT
  | cons f fs ihf =>
    cases vs with
    | nil => simp [FieldsTy] at hT
    | cons v vs =>
      simp only [FieldsTy] at hT
      simp only [HoldsFields] at hH
      obtain ⟨ms, os, h1, h2, h3⟩ := ihf vs (fun w hw => ih w (by simp [hw])) hT.2 hH.2
        (fun g hg => hplain g (by simp [hg])) (fun g hg => hproxy g (by simp [hg])) (fun g hg => hom g (by simp [hg]))
      have hput : ∀ (J : JTree) (txt : List Char), f.skip = false → Spells fl J txt →
          ¬ Trips env f.ty J → (∀ n, N ≤ n → decField (decode env fl n) f J = .ok v) →
          serJsonFields env fl nul (f :: fs) (v :: vs) = jsonMember f.key txt :: serJsonFields env fl nul fs vs →
          ∃ ms os, ms.length = (serJsonFields env fl nul (f :: fs) (v :: vs)).length ∧
            (∀ p ∈ ms.zip (serJsonFields env fl nul (f :: fs) (v :: vs)), MSpells fl p.1 p.2) ∧
            Placed (fun f J v => ¬ Trips env f.ty J ∧ ∀ n, N ≤ n → decField (decode env fl n) f J = .ok v) (f :: fs) (v :: vs) ms os := by
        intro J txt hs hJ hTr hD e
        refine ⟨(.str f.key, J) :: ms, some v :: os, by rw [e]; simp [h1], ?_, .put hs ⟨hTr, hD⟩ h3⟩
        intro p hp
        rw [e] at hp
        simp only [List.zip_cons_cons, List.mem_cons] at hp
        rcases hp with rfl | hp
        · exact member_spells (hplain f (by simp) hs) hJ
        · exact h2 p hp
      cases hsk : f.skip with
      | true =>
        have e : serJsonFields env fl nul (f :: fs) (v :: vs) = serJsonFields env fl nul fs vs := by
          simp [serJsonFields, hsk]
        rw [if_pos ⟨trivial, hsk⟩] at hH
        exact ⟨ms, none :: os, by rw [e]; exact h1, by rw [e]; exact h2, .skip (.inl hsk) hH.1 h3⟩
      | false =>
        rw [if_neg (by simp [hsk])] at hH
        by_cases hn : f.optSyn = true ∧ v.isNone = true
        · have hv : v = .none := by cases v <;> simp [Val.isNone] at hn ⊢
          subst hv
          by_cases hnul : (f.noneAsNull || nul) = true ∧ ¬ f.optProxy = true
          · refine hput .null ['n', 'u', 'l', 'l'] hsk ?_ not_trips_of_null ?_ ?_
            · unfold Spells; rw [JTree.lexemes]; exact .single .null
            · intro n hnN
              have h0 := (ih .none (by simp)).1
              obtain ⟨n, rfl⟩ : ∃ k, n = k + 1 := ⟨n - 1, by simp at h0; omega⟩
              unfold decField
              have hp : f.optProxy = false := by simpa using hnul.2
              rw [hp]
              have hty := hT.1
              generalize f.ty = T at hty
              cases T <;> simp [HasTy] at hty
              simp [decode]
            · rw [serJsonFields, if_neg (by simp [hsk]), if_pos hn, if_pos hnul]
          · have e : serJsonFields env fl nul (f :: fs) (Val.none :: vs) = serJsonFields env fl nul fs vs := by
              rw [serJsonFields, if_neg (by simp [hsk]), if_pos hn, if_neg hnul]
            refine ⟨ms, none :: os, by rw [e]; exact h1, by rw [e]; exact h2, .skip (.inr hn.1) ?_ h3⟩
            rcases hom f (by simp) hsk hn.1 with h | h
            · exact absurd ⟨h.1, by simp [h.2]⟩ hnul
            · exact h.symm
        · have hx : JsonExactT env fl f.ty v := hH.1
          obtain ⟨J, hJ, hTr, hD⟩ := field_put (hproxy f (by simp)) hT.1 hn ((ih v (by simp)).2 _ hT.1 hx)
            (fun t' w' e1 e2 => hx.opt e1 e2)
          refine hput J _ hsk hJ hTr (fun n hn => hD n (by have := (ih v (by simp)).1; omega)) ?_
          rw [serJsonFields, if_neg (by simp [hsk]), if_neg hn]

theorem varFields_round (fs : List Field) (vs : List Val) (N : Nat)
    (ih : ∀ v ∈ vs, sizeOf v ≤ N ∧ ∀ t, HasTy env t v → JsonExactT env fl t v → JRound env fl t v)
    (hT : FieldsTy env fs vs)
    (hH : HoldsFields env (JsonNodeOkT env fl) Field.absent false false fs vs)
    (hskip : ∀ f ∈ fs, f.skip = false) (hren : ∀ f ∈ fs, f.rename = none)
    (hplain : ∀ f ∈ fs, PlainName f.name)
    (hproxy : ∀ f ∈ fs, f.optProxy = true → f.optSyn = true)
    (hom : ∀ f ∈ fs, f.optSyn = true → f.absent = .none) :
    ∃ ms tr os, LSpells fl (commaLexemes tr (ms.map fun m : JTree × JTree => m.1.lexemes ++ .punct .colon :: m.2.lexemes))
        (serJsonVarFields env fl fs vs) ∧ (ms = [] → serJsonVarFields env fl fs vs = []) ∧
      Placed (fun f J v => ¬ Trips env f.ty J ∧ ∀ n, N ≤ n → decField (decode env fl n) f J = .ok v) fs vs ms os := by
  induction fs generalizing vs with
  | nil =>
    cases vs with
    | nil => exact ⟨[], false, [], .nil, fun _ => rfl, .nil⟩
    | cons v vs => simp [FieldsTy] at hT
  | cons f fs ihf =>
    cases vs with
    | nil => simp [FieldsTy] at hT
    | cons v vs =>
      simp only [FieldsTy] at hT
      simp only [HoldsFields] at hH
      obtain ⟨ms, tr, os, h1, h2, h3⟩ := ihf vs (fun w hw => ih w (by simp [hw])) hT.2 hH.2
        (fun g hg => hskip g (by simp [hg])) (fun g hg => hren g (by simp [hg]))
        (fun g hg => hplain g (by simp [hg])) (fun g hg => hproxy g (by simp [hg])) (fun g hg => hom g (by simp [hg]))
      rw [if_neg (by simp)] at hH
      by_cases hn : f.optSyn = true ∧ v.isNone = true
      · have hv : v = .none := by cases v <;> simp [Val.isNone] at hn ⊢
        have e : serJsonVarFields env fl (f :: fs) (v :: vs) = serJsonVarFields env fl fs vs := by
          rw [serJsonVarFields, if_pos hn]; rfl
        exact ⟨ms, tr, none :: os, by rw [e]; exact h1, by rw [e]; exact h2,
          .skip (.inr hn.1) (by rw [hv, hom f (by simp) hn.1]) h3⟩
      · have hx : JsonExactT env fl f.ty v := hH.1
        obtain ⟨J, hJ, hTr, hD⟩ := field_put (hproxy f (by simp)) hT.1 hn ((ih v (by simp)).2 _ hT.1 hx)
          (fun t' w' e1 e2 => hx.opt e1 e2)
        have hkey : f.key = f.name := by simp [Field.key, hren f (by simp)]
        have hm := member_spells (hplain f (by simp)) hJ
        have hP := h3.put (J := J) (v := v) (hskip f (by simp))
          ⟨hTr, fun n hn => hD n (by have := (ih v (by simp)).1; omega)⟩
        rw [hkey] at hP
        have e : serJsonVarFields env fl (f :: fs) (v :: vs) =
            (jsonMember f.name (serJson env fl f.ty v) ++ if fs.isEmpty then [] else [',']) ++ serJsonVarFields env fl fs vs := by
          rw [serJsonVarFields, if_neg hn]
        cases fs with
        | nil =>
          cases h3
          refine ⟨_, false, _, ?_, by simp, hP⟩
          rw [e]
          simp only [List.map_cons, List.map_nil, commaLexemes, List.append_nil, serJsonVarFields, List.isEmpty_nil, if_true,
            Bool.false_eq_true, if_false]
          exact hm
        | cons g gs =>
          simp only [List.isEmpty_cons] at e
          rw [if_neg (by simp)] at e
          cases ms with
          | nil =>
            refine ⟨_, true, _, ?_, by simp, hP⟩
            rw [e, h2 rfl]
            simp only [List.map_cons, List.map_nil, commaLexemes, List.append_nil, if_true]
            exact LSpells.append hm (.single .comma) fun r _ => SepText.cons (by simp)
          | cons m ms =>
            refine ⟨_, tr, _, ?_, by simp, hP⟩
            rw [e]
            simp only [List.map_cons, commaLexemes]
            rw [List.append_assoc (jsonMember _ _)]
            refine LSpells.append (a := _ ++ _) hm (LSpells.punct .comma h1) fun r _ => SepText.cons (by simp)

/-! ## Numbers -/

theorem decInt_intNum {k : IntKind} {i : Int} (hk : k.textual = true) (h : k.inRange i) :
    decInt k (intNum i) = some i := by
  have hrt := ofTwos_toTwos k i h
  unfold IntKind.inRange at h
  obtain ⟨h1, h2⟩ := h
  unfold intNum
  by_cases hi : i < 0
  · rw [if_pos hi]
    have hs : k.signed = true := by
      cases hs : k.signed with
      | true => rfl
      | false => simp [IntKind.lo, hs] at h1; omega
    unfold decInt
    rw [hs]
    simp only
    rw [if_neg (by omega)]
    exact congrArg some hrt
  · rw [if_neg hi]
    have hn : ((i.toNat : Nat) : Int) = i := Int.toNat_of_nonneg (by omega)
    unfold decInt
    cases hs : k.signed with
    | true =>
      simp only
      have hb : i < 2 ^ 63 := by
        cases k <;> simp [IntKind.textual, IntKind.signed, IntKind.hi, IntKind.bytes] at hk hs h2 ⊢ <;> omega
      have hu : u64AsI64 i.toNat = i := by
        unfold u64AsI64
        rw [if_pos (by omega), hn]
      rw [hu, if_neg (by omega)]
      exact congrArg some hrt
    | false =>
      simp only
      rw [if_neg (by omega), hn]
      exact congrArg some hrt

theorem inRange_text {k : IntKind} {i : Int} (hk : k.textual = true) (h : k.inRange i) :
    -(2 ^ 63) ≤ i ∧ i ≤ u64Max := by
  cases k <;> simp [IntKind.textual] at hk <;>
    simp [IntKind.inRange, IntKind.lo, IntKind.hi, IntKind.signed, IntKind.bytes, u64Max] at h ⊢ <;> omega

theorem dur_in_time {s n : Nat} (hn : n < 1000000000) {J : JTree} (hJ : ∀ v, Lexeme.num (.nat v) ∈ J.lexemes → v = s ∨ v = n) :
    ∀ bound, s < bound → 2 ^ 32 ≤ bound → ¬ LateBy bound J := by
  rintro bound h1 h2 ⟨v, hv, h | ⟨h, h'⟩⟩
  · rcases hJ v hv with rfl | rfl <;> omega
  · rcases hJ v hv with rfl | rfl <;> rcases hJ _ h' with e | e <;> omega

theorem dur_round {s n : Nat} (hs : s ≤ u64Max) (hn : n < 1000000000) :
    ∃ J, (J ≠ .null ∧ ∀ bound, s < bound → 2 ^ 32 ≤ bound → ¬ LateBy bound J) ∧ Spells fl J (durText s n) ∧ decDur (some J) = .ok (s, n) := by
  have hsecs := member_spells (fl := fl) (nm := ['s', 'e', 'c', 's']) (v := .num (.nat s)) (y := showNat s)
    (by unfold PlainName; decide) (by unfold Spells; rw [JTree.lexemes]; exact .single (.num (showNat_lit hs)))
  have hnn : n ≤ u64Max := by unfold u64Max; omega
  have hnanos := member_spells (fl := fl) (nm := ['n', 'a', 'n', 'o', 's']) (v := .num (.nat n)) (y := showNat n)
    (by unfold PlainName; decide) (by unfold Spells; rw [JTree.lexemes]; exact .single (.num (showNat_lit hnn)))
  by_cases h0 : n > 0
  · refine ⟨.obj [(.str ['s', 'e', 'c', 's'], .num (.nat s)), (.str ['n', 'a', 'n', 'o', 's'], .num (.nat n))] false,
      ⟨by simp, dur_in_time hn (by
        intro v hv
        simpa [JTree.lexemes_obj, commaLexemes, JTree.lexemes] using hv)⟩, ?_, ?_⟩
    · have := Spells.obj (fl := fl) (ms := [(.str ['s', 'e', 'c', 's'], .num (.nat s)), (.str ['n', 'a', 'n', 'o', 's'], .num (.nat n))])
        (txts := [_, _]) rfl (fun p hp => by
          simp only [List.zip_cons_cons, List.mem_cons, List.zip_nil_right, List.not_mem_nil, or_false] at hp
          rcases hp with rfl | rfl
          · exact hsecs
          · exact hnanos)
      simpa [durText, h0, joinSep, jsonMember, jsonLabel] using this
    · have h2 : n ≤ 2 ^ 32 - 1 := by omega
      simp [decDur, foldD, decDurMember, decNat, Dec.bind, hs, h2, hn, Nat.not_lt.2 (Nat.le_of_lt hn)]
  · obtain rfl : n = 0 := by omega
    refine ⟨.obj [(.str ['s', 'e', 'c', 's'], .num (.nat s))] false, ⟨by simp, dur_in_time (n := 0) (by decide) (by
        intro v hv
        exact .inl (by simpa [JTree.lexemes_obj, commaLexemes, JTree.lexemes] using hv))⟩, ?_, ?_⟩
    · have := Spells.obj (fl := fl) (ms := [(.str ['s', 'e', 'c', 's'], .num (.nat s))])
        (txts := [_]) rfl (fun p hp => by
          simp only [List.zip_cons_cons, List.mem_cons, List.zip_nil_right, List.not_mem_nil, or_false] at hp
          subst hp
          exact hsecs)
      simpa [durText, joinSep, jsonMember, jsonLabel] using this
    · simp [decDur, foldD, decDurMember, decNat, Dec.bind, hs]

/-! ## All types -/

theorem foldl_snoc' (acc vs : List Val) : vs.foldl (fun acc v => acc ++ [v]) acc = acc ++ vs := by
  induction vs generalizing acc with
  | nil => simp
  | cons v vs ih => simp [ih]

theorem tys_of_zip {ts : List Ty} {vs : List Val} (hT : TysTy env ts vs) {P dflt si}
    (hH : HoldsTys env P dflt si ts vs) : ∀ p ∈ ts.zip vs, HasTy env p.1 p.2 ∧ Holds env P dflt si p.1 p.2 := by
  induction ts generalizing vs with
  | nil => simp
  | cons t ts ih =>
    cases vs with
    | nil => simp
    | cons v vs =>
      simp only [TysTy] at hT
      simp only [HoldsTys] at hH
      intro p hp
      simp only [List.zip_cons_cons, List.mem_cons] at hp
      rcases hp with rfl | hp
      · exact ⟨hT.1, hH.1⟩
      · exact ih hT.2 hH.2 p hp

theorem findVariant_split {vars : List Variant} {j : Nat} {v : Variant} (hj : vars[j]? = some v)
    (hd : vars.Pairwise fun v w => v.isUnit = w.isUnit → v.key ≠ w.key) :
    findVariant vars v.isUnit v.key = some j := by
  unfold findVariant
  rw [List.findIdx?_eq_some_iff_getElem]
  obtain ⟨hlt, he⟩ := List.getElem?_eq_some_iff.1 hj
  refine ⟨hlt, by simp [he], fun i hi => ?_⟩
  have := List.pairwise_iff_getElem.1 hd i j (by omega) hlt hi
  rw [he] at this
  simp only [Bool.and_eq_true, beq_iff_eq, not_and]
  exact fun h => this h

theorem replicate_tys {t : Ty} {vs : List Val} (h : AllTy env t vs) : TysTy env (List.replicate vs.length t) vs := by
  induction vs with
  | nil => simp [TysTy]
  | cons v vs ih =>
    simp only [AllTy] at h
    simp only [List.length_cons, List.replicate_succ, TysTy]
    exact ⟨h.1, ih h.2⟩

theorem serJsonTys_replicate {t : Ty} {vs : List Val} :
    serJsonTys env fl (List.replicate vs.length t) vs = serJsonAll env fl t vs := by
  induction vs with
  | nil => rfl
  | cons v vs ih => simp [List.replicate_succ, serJsonTys, serJsonAll, ih]

theorem mem_zip_replicate {t : Ty} {n : Nat} {xs : List JTree} (hl : xs.length = n) {x : JTree} (hx : x ∈ xs) : (t, x) ∈ (List.replicate n t).zip xs := by
  subst hl
  induction xs with
  | nil => cases hx
  | cons y ys ih =>
    simp only [List.length_cons, List.replicate_succ, List.zip_cons_cons, List.mem_cons]
    rcases List.mem_cons.1 hx with rfl | hx
    · exact .inl rfl
    · exact .inr (ih hx)

theorem jround (hk : LawfulKeys env) (hfl : FloatLaws fl) (hE : JsonEnvOk env) (v : Val) :
    ∀ t, HasTy env t v → JsonExactT env fl t v → JRound env fl t v := by
  induction v using Val.sizeInd with
  | h v ih =>
  intro t hT hX
  have hH := Holds.head hX
  -- sequences
  have hseq : ∀ (t : Ty) (vs : List Val), v = .seq vs → AllTy env t vs →
      HoldsAll env (JsonNodeOkT env fl) Field.absent false t vs → ∀ v ∈ vs, JRound env fl t v := by
    intro t vs e h1 h2 w hw
    exact ih w (by subst e; have := Val.sizeOf_mem hw; simp; omega) t (AllTy_iff.1 h1 w hw) (HoldsAll_iff.1 h2 w hw)
  have htys : ∀ (ts : List Ty) (vs : List Val), (∀ w ∈ vs, sizeOf w < sizeOf v) → TysTy env ts vs →
      HoldsTys env (JsonNodeOkT env fl) Field.absent false ts vs → ∀ p ∈ ts.zip vs, JRound env fl p.1 p.2 := by
    intro ts vs hs h1 h2 p hp
    have := tys_of_zip h1 h2 p hp
    exact ih p.2 (hs _ (List.of_mem_zip hp).2) p.1 this.1 this.2
  have hseqlt : ∀ vs : List Val, v = .seq vs → ∀ w ∈ vs, sizeOf w < sizeOf v := by
    intro vs e w hw; subst e; have := Val.sizeOf_mem hw; simp; omega
  -- a sequence with insertion
  have hcoll : ∀ (t' : Ty) (vs : List Val) (ins : List Val → Val → List Val), (t = .vec t' ∨ t = .linked t' ∨ t = .hset t' ∨ t = .bset t') → v = .seq vs →
      (∀ w ∈ vs, JRound env fl t' w) → vs.foldl ins [] = vs →
      serJson env fl t v = '[' :: (joinSep [','] (serJsonAll env fl t' vs) ++ [']']) →
      (∀ n o, decode env fl (n + 1) t o = decSeq (fun acc x => (decode env fl n t' (some x)).bind fun v => .ok (ins acc v)) o) →
      JRound env fl t v := by
    intro t' vs ins hlist e hr hf hser hdec
    obtain ⟨xs, h1, h2, h3⟩ := items_round vs hr
    refine ⟨.arr xs false, by rw [hser]; exact Spells.arr (.inl rfl) h1 h2.1, ⟨by simp, not_trips_items hlist h2.2⟩, fun n hn => ?_⟩
    have hlt := hseqlt vs e
    obtain ⟨n, rfl⟩ : ∃ m, n = m + 1 := ⟨n - 1, by subst e; simp at hn; omega⟩
    rw [hdec]
    show (foldD _ _ _).bind _ = _
    rw [h3 n (fun w hw => by have := hlt w hw; omega), hf, e]
    rfl
  have hmap : ∀ (k t' : Ty) (vs : List Val) (c : Coll), (t = .hmap k t' ∨ t = .bmap k t') → v = .seq vs →
      EntriesTy env k t' vs → HoldsEntries env (JsonNodeOkT env fl) Field.absent false k t' vs →
      vs.foldl (collInsert env c) [] = vs →
      serJson env fl t v = '{' :: (joinSep [','] (serJsonEntries env fl k t' vs) ++ ['}']) →
      (∀ n o, decode env fl (n + 1) t o = decMap (fun acc m => (decode env fl n k (some m.1)).bind fun a =>
        (decode env fl n t' (some m.2)).bind fun b => .ok (collInsert env c acc (.entry a b))) o) →
      JRound env fl t v := by
    intro k t' vs c hlist e hT' hH' hf hser hdec
    have hr : ∀ w ∈ vs, ∃ a b, w = .entry a b ∧ JRound env fl k a ∧ JRound env fl t' b := by
      have hlt := hseqlt vs e
      clear hf hser hdec hseq e
      induction vs with
      | nil => simp
      | cons w ws ihw =>
        cases w with
        | entry a b =>
          simp only [EntriesTy] at hT'
          simp only [HoldsEntries] at hH'
          intro w hw
          rcases List.mem_cons.1 hw with rfl | hw
          · have := hlt (.entry a b) (by simp)
            simp only [Val.entry.sizeOf_spec] at this
            exact ⟨a, b, rfl, ih a (by omega) _ hT'.1 hH'.1, ih b (by omega) _ hT'.2.1 hH'.2.1⟩
          · exact ihw hT'.2.2 hH'.2.2 (fun w hw => hlt w (by simp [hw])) w hw
        | _ => simp [EntriesTy] at hT'
    obtain ⟨ms, h1, h2, h3⟩ := entries_round vs hr
    refine ⟨.obj ms false, by rw [hser]; exact Spells.obj h1 h2.1, ⟨by simp, not_trips_map hlist h2.2⟩, fun n hn => ?_⟩
    have hlt := hseqlt vs e
    obtain ⟨n, rfl⟩ : ∃ m, n = m + 1 := ⟨n - 1, by subst e; simp at hn; omega⟩
    rw [hdec]
    show (foldD _ _ _).bind _ = _
    rw [h3 n (fun w hw => by have := hlt w hw; omega), hf, e]
    rfl
  have htup : ∀ (ts : List Ty) (vs : List Val), (∀ xs : List JTree, (∀ p ∈ ts.zip xs, ¬ Trips env p.1 p.2) → xs.length = (serJsonTys env fl ts vs).length →
        ¬ Trips env t (.arr xs false)) → v = .seq vs → TysTy env ts vs →
      HoldsTys env (JsonNodeOkT env fl) Field.absent false ts vs →
      serJson env fl t v = '[' :: (joinSep [','] (serJsonTys env fl ts vs) ++ [']']) →
      (∀ n o, decode env fl (n + 1) t o = (decTuple (decode env fl n) ts o).bind fun vs => .ok (.seq vs)) →
      JRound env fl t v := by
    intro ts vs hnt e h1 h2 hser hdec
    obtain ⟨xs, x1, x2, x3⟩ := tys_round ts vs h1 (htys ts vs (hseqlt vs e) h1 h2)
    refine ⟨.arr xs false, by rw [hser]; exact Spells.arr (.inl rfl) x1 x2.1, ⟨by simp, hnt xs x2.2 x1⟩, fun n hn => ?_⟩
    have hlt := hseqlt vs e
    obtain ⟨n, rfl⟩ : ∃ m, n = m + 1 := ⟨n - 1, by subst e; simp at hn; omega⟩
    rw [hdec]
    show (decTys _ _ _).bind _ = _
    rw [x3 n (fun w hw => by have := hlt w hw; omega), e]
    rfl
  cases t with
  | unit =>
    cases v <;> simp [HasTy] at hT
    refine ⟨.null, ?_, ⟨fun _ => by simp [serJson], not_trips_leaf (.inl rfl) _⟩, fun n hn => ?_⟩
    · unfold Spells; rw [JTree.lexemes, serJson]; exact .single .null
    · obtain ⟨n, rfl⟩ : ∃ m, n = m + 1 := ⟨n - 1, by simp at hn; omega⟩
      simp [decode]
  | bool =>
    cases v <;> simp [HasTy] at hT
    rename_i b
    refine ⟨.bool b, ?_, ⟨by simp, not_trips_leaf (.inr (.inl rfl)) _⟩, fun n hn => ?_⟩
    · unfold Spells
      cases b
      · rw [JTree.lexemes, serJson]; exact .single .false
      · rw [JTree.lexemes, serJson]; exact .single .true
    · obtain ⟨n, rfl⟩ : ∃ m, n = m + 1 := ⟨n - 1, by simp at hn; omega⟩
      simp [decode]
  | int k =>
    cases v <;> simp [HasTy] at hT
    rename_i i
    have hk := hH.1 k rfl
    have hb := inRange_text hk hT
    refine ⟨.num (intNum i), ?_, ⟨by simp, not_trips_leaf (.inr (.inr (.inl ⟨k, rfl⟩))) _⟩, fun n hn => ?_⟩
    · unfold Spells
      rw [JTree.lexemes, serJson]
      exact .single (.num (showInt_lit hb.1 hb.2))
    · obtain ⟨n, rfl⟩ : ∃ m, n = m + 1 := ⟨n - 1, by simp at hn; omega⟩
      simp [decode, hk, decInt_intNum hk hT]
  | f32 =>
    cases v <;> simp [HasTy] at hT
    rename_i x
    have hx := hH.2.2.1 x rfl
    obtain ⟨y, hy, hy'⟩ := hfl.parse_show32 x hx
    refine ⟨.num (.float y), ?_, ⟨by simp, not_trips_leaf (.inr (.inr (.inr (.inl rfl)))) _⟩, fun n hn => ?_⟩
    · unfold Spells
      rw [JTree.lexemes, serJson]
      exact .single (.num (floatLit_num (hfl.lit32 x hx) hy))
    · obtain ⟨n, rfl⟩ : ∃ m, n = m + 1 := ⟨n - 1, by simp at hn; omega⟩
      simp [decode, decFloat, hy']
  | f64 =>
    cases v <;> simp [HasTy] at hT
    rename_i x
    have hx := hH.2.1 x rfl
    refine ⟨.num (.float x), ?_, ⟨by simp, not_trips_leaf (.inr (.inr (.inr (.inr (.inl rfl))))) _⟩, fun n hn => ?_⟩
    · unfold Spells
      rw [JTree.lexemes, serJson]
      exact .single (.num (floatLit_num (hfl.lit64 x hx) (hfl.parse_show64 x hx)))
    · obtain ⟨n, rfl⟩ : ∃ m, n = m + 1 := ⟨n - 1, by simp at hn; omega⟩
      simp [decode, decFloat]
  | str =>
    cases v <;> simp [HasTy] at hT
    rename_i s
    refine ⟨.str s, ?_, ⟨by simp, not_trips_leaf (.inr (.inr (.inr (.inr (.inr rfl))))) _⟩, fun n hn => ?_⟩
    · unfold Spells
      rw [JTree.lexemes, serJson]
      exact .single (.str (jsonStr_lit s))
    · obtain ⟨n, rfl⟩ : ∃ m, n = m + 1 := ⟨n - 1, by simp at hn; omega⟩
      simp [decode]
  | dur =>
    cases v <;> simp only [HasTy] at hT
    rename_i s ns
    obtain ⟨J, hJ, h1, h2⟩ := dur_round (fl := fl) hT.1 hT.2
    refine ⟨J, by rw [serJson]; exact h1, ⟨fun h => absurd h hJ.1, not_trips_dur (hJ.2 _ (by have := hT.1; unfold u64Max at this; omega) (by decide))⟩, fun n hn => ?_⟩
    obtain ⟨n, rfl⟩ : ∃ m, n = m + 1 := ⟨n - 1, by simp at hn; omega⟩
    simp [decode, h2, Dec.bind]
  | time =>
    cases v <;> simp only [HasTy] at hT
    rename_i s ns
    have h0 : 0 ≤ s := hH.2.2.2.1 s ns rfl
    obtain ⟨J, hJ, h1, h2⟩ := dur_round (fl := fl) (s := s.toNat) (n := ns) (by unfold u64Max; omega) hT.2.2
    refine ⟨J, by rw [serJson, if_pos h0]; exact h1, ⟨fun h => absurd h hJ.1, not_trips_time (hJ.2 _ (by omega) (by decide))⟩, fun n hn => ?_⟩
    replace hJ := hJ.1
    obtain ⟨n, rfl⟩ : ∃ m, n = m + 1 := ⟨n - 1, by simp at hn; omega⟩
    unfold decode
    cases J with
    | null => exact absurd rfl hJ
    | _ =>
      simp only [h2, Dec.bind]
      rw [if_pos (by omega), Int.toNat_of_nonneg h0]
  | option t =>
    cases v <;> simp only [HasTy] at hT
    · refine ⟨.null, ?_, ⟨fun _ => by simp [serJson], not_trips_of_null⟩, fun n hn => ?_⟩
      · unfold Spells; rw [JTree.lexemes, serJson]; exact .single .null
      · obtain ⟨n, rfl⟩ : ∃ m, n = m + 1 := ⟨n - 1, by simp at hn; omega⟩
        simp [decode]
    · rename_i w
      simp only [JsonExactT, Holds] at hX
      obtain ⟨J, h1, h2, h3⟩ := ih w (by simp) t hT hX.2
      have hJ : J ≠ .null := fun h => hH.2.2.2.2 t w rfl rfl (h2.1 h)
      refine ⟨J, by rw [serJson]; exact h1, ⟨fun h => absurd h hJ, not_trips_option h2.2⟩, fun n hn => ?_⟩
      obtain ⟨n, rfl⟩ : ∃ m, n = m + 1 := ⟨n - 1, by simp at hn; omega⟩
      have := h3 n (by simp at hn; omega)
      unfold decode
      cases J with
      | null => exact absurd rfl hJ
      | _ => simp only [this, Dec.bind]
  | vec t =>
    cases v <;> simp only [HasTy] at hT
    simp only [JsonExactT, Holds] at hX
    exact hcoll t _ (fun acc v => acc ++ [v]) (.inl rfl) rfl (hseq _ _ rfl hT.1 hX.2) (foldl_snoc' [] _) (by simp [serJson])
      fun n o => by simp [decode]
  | linked t =>
    cases v <;> simp only [HasTy] at hT
    simp only [JsonExactT, Holds] at hX
    exact hcoll t _ (fun acc v => acc ++ [v]) (.inr (.inl rfl)) rfl (hseq _ _ rfl hT.1 hX.2) (foldl_snoc' [] _) (by simp [serJson])
      fun n o => by simp [decode]
  | hset t =>
    cases v <;> simp only [HasTy] at hT
    simp only [JsonExactT, Holds] at hX
    exact hcoll t _ _ (.inr (.inr (.inl rfl))) rfl (hseq _ _ rfl hT.1 hX.2) (hset_fold hk [] _ hT.2.2.2 (by simp)) (by simp [serJson])
      fun n o => by simp [decode]
  | bset t =>
    cases v <;> simp only [HasTy] at hT
    simp only [JsonExactT, Holds] at hX
    exact hcoll t _ _ (.inr (.inr (.inr rfl))) rfl (hseq _ _ rfl hT.1 hX.2) (bset_fold hk [] _ hT.2.2 (by simp)) (by simp [serJson])
      fun n o => by simp [decode]
  | array t len =>
    cases v <;> simp only [HasTy] at hT
    rename_i vs
    simp only [JsonExactT, Holds] at hX
    obtain ⟨hT1, rfl⟩ := hT
    refine htup (List.replicate vs.length t) vs (fun xs h hl => not_trips_array fun x hx => ?_) rfl (replicate_tys hT1) ?_ ?_ fun n o => by simp [decode]
    · rw [serJsonTys_replicate, serJsonAll_eq, List.length_map] at hl
      exact h (t, x) (mem_zip_replicate hl hx)
    · have h2 := hX.2
      clear hseq htys hseqlt hcoll hmap htup hX hH ih hT1
      induction vs with
      | nil => simp [HoldsTys]
      | cons v vs ihv =>
        simp only [HoldsAll] at h2
        simp only [List.length_cons, List.replicate_succ, HoldsTys]
        exact ⟨h2.1, ihv h2.2⟩
    · rw [serJsonTys_replicate]; simp [serJson]
  | pair a b =>
    cases v <;> simp only [HasTy] at hT
    simp only [JsonExactT, Holds] at hX
    exact htup [a, b] _ (fun xs h _ => not_trips_components (by simp [Ty.components]) h) rfl hT hX.2 (by simp [serJson]) fun n o => by simp [decode]
  | triple a b c =>
    cases v <;> simp only [HasTy] at hT
    simp only [JsonExactT, Holds] at hX
    exact htup [a, b, c] _ (fun xs h _ => not_trips_components (by simp [Ty.components]) h) rfl hT hX.2 (by simp [serJson]) fun n o => by simp [decode]
  | quad a b c d =>
    cases v <;> simp only [HasTy] at hT
    simp only [JsonExactT, Holds] at hX
    exact htup [a, b, c, d] _ (fun xs h _ => not_trips_components (by simp [Ty.components]) h) rfl hT hX.2 (by simp [serJson]) fun n o => by simp [decode]
  | hmap k t =>
    cases v <;> simp only [HasTy] at hT
    simp only [JsonExactT, Holds] at hX
    exact hmap k t _ .hmap (.inl rfl) rfl hT.1 hX.2
      (hmap_fold hk [] _ (by simp [AllEntries]) hT.1.allEntries hT.2.2.2 (by simp)) (by simp [serJson])
      fun n o => by simp [decode]
  | bmap k t =>
    cases v <;> simp only [HasTy] at hT
    simp only [JsonExactT, Holds] at hX
    exact hmap k t _ .bmap (.inr rfl) rfl hT.1 hX.2
      (bmap_fold hk [] _ (by simp [AllEntries]) hT.1.allEntries hT.2.2 (by simp)) (by simp [serJson])
      fun n o => by simp [decode]
  | box t =>
    cases v <;> simp only [HasTy] at hT
    rename_i w
    simp only [JsonExactT, Holds] at hX
    obtain ⟨J, h1, h2, h3⟩ := ih w (by simp) t hT hX.2
    refine ⟨J, by rw [serJson]; exact h1, ⟨by rw [serJson]; exact h2.1, not_trips_box h2.2⟩, fun n hn => ?_⟩
    obtain ⟨n, rfl⟩ : ∃ m, n = m + 1 := ⟨n - 1, by simp at hn; omega⟩
    simp [decode, h3 n (by simp at hn; omega), Dec.bind]
  | proxied i =>
    cases v <;> simp only [HasTy] at hT
    rename_i o p
    simp only [JsonExactT, Holds] at hX
    cases hpx : env.proxies[i]? with
    | none => rw [hpx] at hT; exact absurd hT id
    | some px =>
      rw [hpx] at hT hX
      simp only at hT hX
      obtain ⟨J, h1, h2, h3⟩ := ih p (by simp; omega) px.ty hT.1 hX.2
      have e : serJson env fl (.proxied i) (.prox o p) = serJson env fl px.ty p := by rw [serJson, hpx]
      refine ⟨J, by rw [e]; exact h1, ⟨by rw [e]; exact h2.1, not_trips_proxied hpx h2.2⟩, fun n hn => ?_⟩
      obtain ⟨n, rfl⟩ : ∃ m, n = m + 1 := ⟨n - 1, by simp at hn; omega⟩
      simp [decode, hpx, h3 n (by simp at hn; omega), Dec.bind, hT.2.1, hT.2.2]
  | named i =>
    cases v <;> simp only [HasTy] at hT
    · -- structs
      rename_i vs
      have hlt : ∀ w ∈ vs, sizeOf w < sizeOf (Val.struct vs) := by
        intro w hw; have := Val.sizeOf_mem hw; simp; omega
      simp only [JsonExactT, Holds] at hX
      cases hdf : env.defs[i]? with
      | none => rw [hdf] at hT; exact absurd hT id
      | some d =>
        rw [hdf] at hT hX
        have hdo := hE i d hdf
        cases d with
        | enum vars => exact absurd hT id
        | struct fs cd nul =>
          simp only at hT hX
          obtain ⟨o1, o2, o3, o4⟩ := hdo
          obtain ⟨ms, os, h1, h2, h3⟩ := fields_round (nul := nul) fs vs (sizeOf (Val.struct vs) - 1)
            (fun w hw => ⟨by have := hlt w hw; omega, ih w (hlt w hw)⟩) hT hX.2 o1 o3 o4
          have e : serJson env fl (.named i) (.struct vs) =
            '{' :: (joinSep [','] (serJsonFields env fl nul fs vs) ++ ['}']) := by rw [serJson, hdf]
          refine ⟨.obj ms false, by rw [e]; exact Spells.obj h1 h2, ⟨by simp, not_trips_struct hdf o2 (h3.members fun _ _ _ h => h.1)⟩, fun n hn => ?_⟩
          obtain ⟨n, rfl⟩ : ∃ m, n = m + 1 := ⟨n - 1, by simp at hn; omega⟩
          have := h3.named (dec := decode env fl n) (cd := cd) (tr := false)
            (fun f J v h => h.2 n (by omega)) o2
          simp [decode, hdf, this, Dec.bind]
        | tuple ts tr =>
          simp only at hT hX
          obtain ⟨xs, x1, x2, x3⟩ := tys_round ts vs hT (htys ts vs hlt hT hX.2)
          cases ts with
          | nil =>
            cases vs with
            | cons v vs => simp [TysTy] at hT
            | nil =>
              refine ⟨.obj [] false, ?_, ⟨by simp, not_trips_unit_struct hdf⟩, fun n hn => ?_⟩
              · rw [serJson, hdf]
                simp only [List.isEmpty_nil, if_true]
                exact Spells.obj (ms := []) (txts := []) rfl (by simp)
              · obtain ⟨n, rfl⟩ : ∃ m, n = m + 1 := ⟨n - 1, by simp at hn; omega⟩
                simp [decode, hdf, decTupleStruct]
          | cons t ts =>
            by_cases htr : tr = true ∧ (t :: ts).length = 1
            · obtain ⟨rfl, hl⟩ := htr
              obtain rfl : ts = [] := by simpa using hl
              obtain ⟨w, rfl⟩ : ∃ w, vs = [w] := by
                match vs, hT with
                | [w], _ => exact ⟨w, rfl⟩
                | [], hT => simp [TysTy] at hT
                | _ :: _ :: _, hT => simp [TysTy] at hT
              simp only [TysTy] at hT
              simp only [HoldsTys] at hX
              obtain ⟨J, h1, h2, h3⟩ := ih w (hlt w (by simp)) t hT.1 hX.2.1
              have e : serJson env fl (.named i) (.struct [w]) = serJson env fl t w := by
                rw [serJson, hdf]; simp [serJsonTys, joinSep]
              refine ⟨J, by rw [e]; exact h1, ⟨by rw [e]; exact h2.1, not_trips_transparent hdf h2.2⟩, fun n hn => ?_⟩
              obtain ⟨n, rfl⟩ : ∃ m, n = m + 1 := ⟨n - 1, by simp at hn; omega⟩
              simp [decode, hdf, decTupleStruct, h3 n (by simp at hn; omega), Dec.bind]
            · have e : serJson env fl (.named i) (.struct vs) =
                  '[' :: (joinSep [',', ' '] (serJsonTys env fl (t :: ts) vs) ++ [']']) := by
                rw [serJson, hdf]
                simp only [List.isEmpty_cons]
                rw [if_neg (by simp), if_neg htr]
              refine ⟨.arr xs false, by rw [e]; exact Spells.arr (.inr rfl) x1 x2.1,
                ⟨by simp, not_trips_tuple hdf (fun hl => by cases tr <;> simp_all) x2.2⟩, fun n hn => ?_⟩
              obtain ⟨n, rfl⟩ : ∃ m, n = m + 1 := ⟨n - 1, by simp at hn; omega⟩
              have hx := x3 n (fun w hw => by have := hlt w hw; omega)
              simp only [decode, hdf]
              cases ts with
              | cons t' ts => simp [decTupleStruct, decTuple, hx, Dec.bind]
              | nil =>
                obtain rfl : tr = false := by simpa using htr
                match xs, hx with
                | [], hx => simp [decTys] at hx; cases hd : decode env fl n t none <;> simp [hd, Dec.bind] at hx
                | [x], hx =>
                  simp only [decTupleStruct]
                  simp only [decTys] at hx
                  cases hd : decode env fl n t (some x) <;> simp [hd, Dec.bind] at hx ⊢
                  exact hx
                | x :: y :: xs, hx =>
                  simp only [decTys] at hx
                  cases hd : decode env fl n t (some x) <;> simp [hd, Dec.bind] at hx
    · -- enums
      rename_i j vs
      have hlt : ∀ w ∈ vs, sizeOf w < sizeOf (Val.variant j vs) := by
        intro w hw; have := Val.sizeOf_mem hw; simp; omega
      simp only [JsonExactT, Holds] at hX
      cases hdf : env.defs[i]? with
      | none => rw [hdf] at hT; exact absurd hT id
      | some d =>
        rw [hdf] at hT hX
        have hdo := hE i d hdf
        cases d with
        | struct fs cd nul => exact absurd hT id
        | tuple ts tr => exact absurd hT id
        | enum vars =>
          simp only at hT hX
          obtain ⟨o1, o2, o3⟩ := hdo
          cases hj : vars[j]? with
          | none => rw [hj] at hT; exact absurd hT id
          | some vr =>
            rw [hj] at hT hX
            have hmem : vr ∈ vars := List.mem_of_getElem? hj
            have hfv := findVariant_split hj (o2.imp fun h e => h (variant_isUnit_iff.1 e))
            have hget : vars.getD j { name := [], shape := .unit } = vr := by
              rw [List.getD_eq_getElem?_getD, hj]; rfl
            obtain ⟨nm, rn, sh⟩ := vr
            cases sh with
            | unit =>
              simp only at hT
              subst hT
              refine ⟨.str (rn.getD nm), ?_, ⟨by simp, not_trips_unit_variant hdf⟩, fun n hn => ?_⟩
              · rw [serJson, hdf]
                simp only [hj]
                exact label_spells (o1 _ hmem)
              · obtain ⟨n, rfl⟩ : ∃ m, n = m + 1 := ⟨n - 1, by simp at hn; omega⟩
                simp only [decode, hdf, decEnum]
                have : findVariant vars true (rn.getD nm) = some j := hfv
                rw [this]
            | tuple ts =>
              simp only at hT hX
              obtain ⟨xs, x1, x2, x3⟩ := tys_round ts vs hT (htys ts vs hlt hT hX.2)
              refine ⟨.obj [(.str (rn.getD nm), .arr xs false)] false, ?_, ⟨by simp, not_trips_variant hdf o2 hmem
                (fun ts' e xs' tr' e' => by cases e; cases e'; exact x2.2) (fun fs e => by cases e) (by simp)⟩, fun n hn => ?_⟩
              · have hm := member_spells (o1 _ hmem) (Spells.arr (fl := fl) (.inl rfl) x1 x2.1)
                have := Spells.obj (ms := [(.str (rn.getD nm), .arr xs false)]) (txts := [_]) rfl (fun p hp => by
                  simp only [List.zip_cons_cons, List.mem_cons, List.zip_nil_right, List.not_mem_nil, or_false] at hp
                  subst hp
                  exact hm)
                rw [serJson, hdf]
                simp only [hj]
                exact this
              · obtain ⟨n, rfl⟩ : ∃ m, n = m + 1 := ⟨n - 1, by simp at hn; omega⟩
                simp only [decode, hdf, decEnum]
                have : findVariant vars false (rn.getD nm) = some j := hfv
                rw [this]
                simp only [hget, decShape, decTuple, x3 n (fun w hw => by have := hlt w hw; omega), Dec.bind]
                rfl
            | named fs =>
              simp only at hT hX
              obtain ⟨q1, q2, q3, q4, q5, q6⟩ := o3 _ hmem fs rfl
              obtain ⟨ms, tr, os, h1, h2, h3⟩ := varFields_round fs vs (sizeOf (Val.variant j vs) - 1)
                (fun w hw => ⟨by have := hlt w hw; omega, ih w (hlt w hw)⟩) hT hX.2 q1 q2 q3 q5 q6
              have hd : (fs.filter fun f => !f.skip).Pairwise fun f g => f.key ≠ g.key := by
                refine List.Pairwise.filter _ (q4.imp_of_mem ?_)
                intro a b ha hb h
                simpa [Field.key, q2 a ha, q2 b hb] using h
              refine ⟨.obj [(.str (rn.getD nm), .obj ms tr)] false, ?_, ⟨by simp, not_trips_variant hdf o2 hmem
                (fun ts' e => by cases e) (fun fs' e => by cases e; exact ⟨hd, fun ms' tr' e' => by cases e'; exact h3.members fun _ _ _ h => h.1⟩) (by simp)⟩,
                fun n hn => ?_⟩
              · have hm := member_spells (o1 _ hmem) (Spells.obj_of h1)
                have := Spells.obj (ms := [(.str (rn.getD nm), .obj ms tr)]) (txts := [_]) rfl (fun p hp => by
                  simp only [List.zip_cons_cons, List.mem_cons, List.zip_nil_right, List.not_mem_nil, or_false] at hp
                  subst hp
                  exact hm)
                rw [serJson, hdf]
                simp only [hj]
                exact this
              · obtain ⟨n, rfl⟩ : ∃ m, n = m + 1 := ⟨n - 1, by simp at hn; omega⟩
                simp only [decode, hdf, decEnum]
                have : findVariant vars false (rn.getD nm) = some j := hfv
                rw [this]
                have := h3.named (dec := decode env fl n) (cd := false) (tr := tr)
                  (fun f J v h => h.2 n (by omega)) hd
                simp only [hget, decShape, this, Dec.bind]
                rfl

/-- **JSON round trip**, for the internal statement. -/
theorem json_roundtrip (hk : LawfulKeys env) (hfl : FloatLaws fl) (hE : JsonEnvOk env) {t : Ty} {v : Val}
    (hT : HasTy env t v) (hX : JsonExactT env fl t v) :
    Decodes (fun n => deserializeJson env fl n t (serJson env fl t v)) v := by
  obtain ⟨J, h1, _, h3⟩ := jround hk hfl hE v t hT hX
  refine ⟨sizeOf v + J.lexemes.length, fun m hm => ?_⟩
  have := deserializeJson_agree (env := env) h1.text t (m - J.lexemes.length) m (by omega)
  rw [h3 _ (by omega)] at this
  obtain ⟨s, e, _⟩ := this
  exact ⟨s, e⟩

end NS
