import Verif.Lemmas.JsonMembers
import Verif.Spec.TextErr
import Verif.Lemmas.JsonRun
import Verif.Lemmas.Coll
/-! The error of a missing key; maps. -/
namespace NS
variable {env : Env} {fl : FloatOps}

theorem den_panics (hw : ProgWf env) (hp : Productive env) {t : Ty} (ht : TyWf env t) {J txt} (hx : JText fl J txt) :
    Panics (fun n => deserializeJson env fl n t txt) ↔ den env fl t (some J) = .panic := by
  refine ⟨fun h => ?_, fun h => ((den_settles hw hp ht).2 h).panics hx⟩
  have hs := (den_settles (fl := fl) hw hp ht (J := J)).2 rfl
  obtain ⟨n, h⟩ := h
  obtain ⟨m, h'⟩ := hs.reads hx
  have := h' (max n m) (by omega)
  have h2 := h (max n m) (by omega)
  simp only at h2
  rw [h2] at this
  cases hr : den env fl t (some J) with
  | ok w => rw [hr] at this; obtain ⟨_, h, _⟩ := this; cases h
  | err => rw [hr] at this; obtain ⟨_, _, h⟩ := this; cases h
  | panic => rfl
  | oof => exact absurd hr hs.1

/-- The first field that is missing is reported. -/
theorem unwrapFields_missing {cd} (fs : List Field) (acc : List (Option Val)) (hl : acc.length = fs.length) (i : Nat) (f : Field)
    (hi : fs[i]? = some f) (hn : acc[i]? = some none) (hr : ¬ f.mayBeAbsent cd)
    (hb : ∀ j g, j < i → fs[j]? = some g → acc[j]? = some none → g.mayBeAbsent cd) (s : PSt) :
    unwrapFields cd fs acc s = .err ⟨s.cur.line, s.cur.col, .missingKey f.name⟩ s := by
  induction fs generalizing acc i with
  | nil => simp at hi
  | cons g fs ih =>
    cases acc with
    | nil => simp at hl
    | cons o os =>
      cases i with
      | zero =>
        simp at hi hn
        subst hi; subst hn
        have hr' : ¬ (g.skip || g.optSyn || cd || g.dfltAttr.isSome) = true := by
          intro h; exact hr (by simpa [Field.mayBeAbsent, or_assoc] using h)
        unfold unwrapFields
        have : (if g.skip = true then none else (none : Option Val)) = none := by split <;> rfl
        rw [this]
        simp only
        rw [if_neg hr']
        rfl
      | succ i =>
        have h1 := ih os (by simpa using hl) i (by simpa using hi) (by simpa using hn)
          fun j g' hj h2 h3 => hb (j + 1) g' (by omega) (by simpa using h2) (by simpa using h3)
        unfold unwrapFields
        cases ho : (if g.skip = true then none else o) with
        | some v =>
          simp only
          rw [M.pure_bind]
          exact M.bind_err h1
        | none =>
          simp only
          have hc : (g.skip || g.optSyn || cd || g.dfltAttr.isSome) = true := by
            by_cases hs : g.skip = true
            · simp [hs]
            · rw [if_neg hs] at ho
              subst ho
              have := hb 0 g (by omega) rfl rfl
              simpa [Field.mayBeAbsent, or_assoc] using this
          rw [if_pos hc, M.pure_bind]
          exact M.bind_err h1

theorem deserializeJson_start {J : JTree} {txt : List Char} (h : JText fl J txt) :
    ∃ s, jNext fl (initSt jcol txt) = .ok () s ∧ JPos fl s (J.lexemes ++ [.eof]) [] := by
  have hs := JFull.stream h
  have hne : J.lexemes ++ [.eof] ≠ [] := J.lexemes_ne _
  obtain ⟨l, ls, el⟩ : ∃ l ls, J.lexemes ++ [.eof] = l :: ls := by
    cases e : J.lexemes ++ [Lexeme.eof] with
    | nil => exact absurd e hne
    | cons l ls => exact ⟨l, ls, rfl⟩
  rw [el] at hs ⊢
  exact hs.start (by cases txt <;> simp [initSt, Cur.next]; split <;> rfl)

theorem struct_missing (hw : ProgWf env) (hp : Productive env) {i : Nat} {fs cd nul}
    (hd : env.defs[i]? = some (.struct fs cd nul)) (hdn : DistinctNames fs) {ms : List (JTree × JTree)} {tr : Bool}
    {txt} (hx : JText fl (.obj ms tr) txt) (hr : MembersReadable env fl fs ms) {j : Nat} {f : Field}
    (hj : fs[j]? = some f) (hno : NoMember ms f.jsonName) (hreq : ¬ f.mayBeAbsent cd)
    (hb : ∀ k g, k < j → fs[k]? = some g → NoMember ms g.jsonName → g.mayBeAbsent cd) :
    RejectsWith (fun n => deserializeJson env fl n (.named i) txt) (.missingKey f.name) := by
  have hfs : ∀ f ∈ fs, TyWf env f.ty := fun f hf => Def.wf_of hw hd f.ty (by simp [Def.tys]; exact ⟨f, hf, rfl⟩)
  have hsp := hx.spellable
  have hr' := (mreadable_iff hw hp hfs hdn (fun m hm => (hsp.obj hm).2)).2 hr
  have hfold := (fold_members (D := den env fl) (fs := fs) ms (fs.map fun _ => none) _).2 ⟨hr', rfl⟩
  generalize hacc : ((fs.map fun _ => (none : Option Val)).mapIdx fun i o => (slot (den env fl) fs i ms).or o) = acc at hfold
  have hsl : ∀ i, i < fs.length → acc[i]? = some (slot (den env fl) fs i ms) := by
    intro i hi
    rw [← hacc]
    simp [List.getElem?_eq_getElem hi]
  have hlen : acc.length = fs.length := by rw [← hacc]; simp
  -- the fold computed by `decode` with enough fuel
  have hev : Ev fun n => foldD (decMember (decode env fl n) fs) (fs.map fun _ => none) ms = .ok acc := by
    have : Ev fun n => ∀ m ∈ ms, ∀ f ∈ fs, decField (decode env fl n) f m.2 = decField (den env fl) f m.2 := by
      refine Ev.list ms fun m _ => Ev.list fs fun f hf => ?_
      have h1 := (den_spec (fl := fl) hw hp (hfs f hf) (some m.2)).2
      by_cases ho : ∃ t, f.ty = .option t
      · obtain ⟨t, ho⟩ := ho
        have h2 := (den_spec (fl := fl) hw hp (t := t) (TyWf.of_option (ho ▸ hfs f hf)) (some m.2)).2
        refine (h1.and h2).mono fun n hn => decField_congr hn.1 fun t' e => ?_
        rw [ho] at e; cases e; exact hn.2
      · exact h1.mono fun n hn => decField_congr hn fun t' e => absurd ⟨t', e⟩ ho
    refine this.mono fun n hn => ?_
    rw [foldD_congr ms fun m hm acc => decMember_congr (hn m hm) acc]
    exact hfold
  obtain ⟨n, hn⟩ := hev
  obtain ⟨s0, e0, h0⟩ := deserializeJson_start hx
  refine ⟨n + (JTree.obj ms tr).lexemes.length + 1, fun m hm => ?_⟩
  obtain ⟨m, rfl⟩ : ∃ k, m = k + 1 := ⟨m - 1, by omega⟩
  have hc := obj_count (ms := ms) (tr := tr)
  have hl := fun m (hm : m ∈ ms) => obj_mem_len (tr := tr) hm
  rw [JTree.lexemes_obj] at h0
  simp only [List.cons_append, List.append_assoc, List.nil_append] at h0
  obtain ⟨s1, e1, h1⟩ := h0.next' (by simp)
  have e1' : curlyOpen (jNext fl) s0 = .ok () s1 := (expectTok_ok (by exact h0.tok)).trans e1
  have hread : ∀ mm ∈ ms, ∀ t, Reads fl (deJson env fl m t) mm.2 (decode env fl n t (some mm.2)) := fun mm hmm t =>
    (deJson_readsAt env fl n t).1 mm.2 m (by have := hl mm hmm; omega)
  have hA := members_agree (N := m) (de := deJson env fl m) (dec := decode env fl n) (fs := fs) (rest := [.eof]) (tail := [])
    (β := List (Option Val)) ⟨_, _, rfl, by simp [IsFollow]⟩ tr ms hread (fun mm hmm => by have := hl mm hmm; omega)
    (fun a => pure a) (fun a => .ok a) (fun _ => True) (fun a s _ => ⟨s, rfl, trivial⟩) m (by omega) (fs.map fun _ => none) s1 h1
  rw [hn n (Nat.le_refl _)] at hA
  obtain ⟨s2, e2, _⟩ := hA
  obtain ⟨a, s3, e3, e4⟩ := M.bind_inv e2
  obtain ⟨u, s4, e5, e6⟩ := M.bind_inv e4
  injection e6 with e6 _
  subst e6
  have hlt := List.getElem?_eq_some_iff.1 hj
  have hsn : ∀ (k : Nat) (g : Field), fs[k]? = some g → (a[k]? = some none ↔ (g.skip = true ∨ NoMember ms g.jsonName)) ∨ g.mayBeAbsent cd := by
    intro k g hk
    by_cases hs : g.skip = true
    · exact .inr (.inl hs)
    · left
      have := (slot_some (D := den env fl) hdn hk (by simpa using hs) ms hr').2
      rw [hsl k (List.getElem?_eq_some_iff.1 hk).1]
      simp [this, hs]
  have hfin : unwrapFields cd fs a s4 = .err ⟨s4.cur.line, s4.cur.col, .missingKey f.name⟩ s4 := by
    refine unwrapFields_missing fs a hlen j f hj ?_ hreq ?_ s4
    · rcases hsn j f hj with h | h
      · exact h.2 (.inr hno)
      · exact absurd h hreq
    · intro k g hk h2 h3
      rcases hsn k g h2 with h | h
      · rcases h.1 h3 with h | h
        · exact .inl h
        · exact hb k g hk h2 h
      · exact h
  refine ⟨s4.cur.line, s4.cur.col, s4, ?_⟩
  show (jNext fl >>= fun _ => deJson env fl (m + 1) (.named i)) (initSt jcol txt) = _
  rw [M.bind_ok e0]
  simp only [deJson, hd]
  refine M.bind_err ?_
  unfold deJsonNamed
  rw [M.bind_ok e1', M.bind_ok e3, M.bind_ok e5]
  exact hfin

/-! ## Maps -/

theorem den_map_eq (hw : ProgWf env) (hp : Productive env) {k t : Ty} (hk : TyWf env k) (ht : TyWf env t)
    (c : Coll) (T : Ty) (hT : TyWf env T)
    (hdec : ∀ n o, decode env fl (n + 1) T o = decMap (fun acc m => (decode env fl n k (some m.1)).bind fun a =>
        (decode env fl n t (some m.2)).bind fun b => .ok (collInsert env c acc (.entry a b))) o)
    (ms : List (JTree × JTree)) (tr : Bool) :
    den env fl T (some (.obj ms tr)) = (foldD (fun acc m => (den env fl k (some m.1)).bind fun a =>
        (den env fl t (some m.2)).bind fun b => .ok (collInsert env c acc (.entry a b))) [] ms).bind fun vs => .ok (.seq vs) := by
  refine den_eq (fl := fl) hw hp hT ?_
  have : Ev fun n => ∀ m ∈ ms, decode env fl n k (some m.1) = den env fl k (some m.1) ∧
      decode env fl n t (some m.2) = den env fl t (some m.2) :=
    Ev.list ms fun m _ => (den_spec hw hp hk _).2.and (den_spec hw hp ht _).2
  refine this.mono fun n hn => ?_
  rw [hdec]
  simp only [decMap]
  rw [foldD_congr ms fun m hm acc => by rw [(hn m hm).1, (hn m hm).2]]

theorem fold_map (hw : ProgWf env) (hp : Productive env) {k t : Ty} (hk : TyWf env k) (ht : TyWf env t) (c : Coll)
    (ms : List (JTree × JTree)) (hx : ∀ m ∈ ms, Spellable fl m.1.lexemes ∧ Spellable fl m.2.lexemes) (acc r : List Val) :
    foldD (fun acc m => (den env fl k (some m.1)).bind fun a =>
        (den env fl t (some m.2)).bind fun b => .ok (collInsert env c acc (.entry a b))) acc ms = .ok r ↔
    ∃ es, EntriesRead env fl k t ms es ∧ r = es.foldl (collInsert env c) acc := by
  induction ms generalizing acc with
  | nil =>
    simp only [foldD]
    constructor
    · intro h; injection h with h; exact ⟨[], .nil, h.symm⟩
    · rintro ⟨es, h, rfl⟩; cases h; rfl
  | cons m ms ih =>
    have hxm := hx m (List.mem_cons_self ..)
    simp only [foldD]
    rw [Dec.bind_eq_ok]
    constructor
    · rintro ⟨acc', h1, h2⟩
      obtain ⟨a, ha, h1⟩ := Dec.bind_eq_ok.1 h1
      obtain ⟨b, hb, h1⟩ := Dec.bind_eq_ok.1 h1
      injection h1 with h1
      subst h1
      obtain ⟨es, h3, rfl⟩ := (ih (fun x hx' => hx x (List.mem_cons_of_mem _ hx')) _).1 h2
      exact ⟨.entry a b :: es, .cons ((readsAs_iff hw hp hk hxm.1).2 ha) ((readsAs_iff hw hp ht hxm.2).2 hb) h3, rfl⟩
    · rintro ⟨es, h1, rfl⟩
      cases h1 with
      | @cons _ _ a b es ha hb h3 =>
        refine ⟨collInsert env c acc (.entry a b), ?_, ?_⟩
        · rw [(readsAs_iff hw hp hk hxm.1).1 ha, (readsAs_iff hw hp ht hxm.2).1 hb]; rfl
        · exact (ih (fun x hx' => hx x (List.mem_cons_of_mem _ hx')) _).2 ⟨es, h3, rfl⟩

/-- Reading an object as a map. -/
theorem map_iff (hw : ProgWf env) (hp : Productive env) {k t : Ty} (hk : TyWf env k) (ht : TyWf env t)
    (c : Coll) (T : Ty) (hT : TyWf env T)
    (hdec : ∀ n o, decode env fl (n + 1) T o = decMap (fun acc m => (decode env fl n k (some m.1)).bind fun a =>
        (decode env fl n t (some m.2)).bind fun b => .ok (collInsert env c acc (.entry a b))) o)
    {ms : List (JTree × JTree)} {tr : Bool} {txt} (hx : JText fl (.obj ms tr) txt) (v : Val) :
    Decodes (fun n => deserializeJson env fl n T txt) v ↔
      ∃ es, EntriesRead env fl k t ms es ∧ v = .seq (es.foldl (collInsert env c) []) := by
  rw [den_decodes hw hp hT hx, den_map_eq hw hp hk ht c T hT hdec, Dec.bind_eq_ok]
  constructor
  · rintro ⟨r, h1, h2⟩
    injection h2 with h2
    subst h2
    obtain ⟨es, h3, rfl⟩ := (fold_map hw hp hk ht c ms (fun m hm => hx.spellable.obj hm) [] r).1 h1
    exact ⟨es, h3, rfl⟩
  · rintro ⟨es, h1, rfl⟩
    exact ⟨_, (fold_map hw hp hk ht c ms (fun m hm => hx.spellable.obj hm) [] _).2 ⟨es, h1, rfl⟩, rfl⟩

end NS
