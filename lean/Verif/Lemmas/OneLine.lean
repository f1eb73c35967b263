import Verif.Spec.OneLine
import Verif.Spec.Float
import Verif.Model.Ron
import Verif.Lemmas.JsonText
/-!
# The characters of written texts
-/
set_option linter.unusedVariables false
namespace NS
variable {env : Env} {fl : FloatOps}

/-- All characters of the text are as `Q` says. -/
def AllCh (Q : Char → Prop) (s : List Char) : Prop := ∀ c ∈ s, Q c

theorem AllCh.nil {Q : Char → Prop} : AllCh Q [] := by simp [AllCh]
theorem AllCh.cons {Q : Char → Prop} {c : Char} {s : List Char} (h : Q c) (hs : AllCh Q s) : AllCh Q (c :: s) := by
  intro x hx; rcases List.mem_cons.1 hx with rfl | hx
  · exact h
  · exact hs x hx
theorem AllCh.app {Q : Char → Prop} {a b : List Char} (ha : AllCh Q a) (hb : AllCh Q b) : AllCh Q (a ++ b) := by
  intro x hx; rcases List.mem_append.1 hx with hx | hx
  · exact ha x hx
  · exact hb x hx

theorem AllCh.join {Q : Char → Prop} {sep : List Char} (hs : AllCh Q sep) : ∀ {xs : List (List Char)}, (∀ x ∈ xs, AllCh Q x) → AllCh Q (joinSep sep xs)
  | [], _ => .nil
  | [x], h => h x (by simp)
  | x :: y :: r, h => ((h x (by simp)).app hs).app (AllCh.join hs fun z hz => h z (by simp at hz ⊢; exact .inr hz))

theorem AllCh.commas {Q : Char → Prop} (hs : Q ',') {xs : List (List Char)} (h : ∀ x ∈ xs, AllCh Q x) : AllCh Q (commaEach xs) := by
  intro c hc
  obtain ⟨x, hx, hc⟩ := List.mem_flatMap.1 hc
  exact ((h x hx).app (.cons hs .nil)) c hc

/-- Which characters the writers themselves use. -/
structure Usual (Q : Char → Prop) : Prop where
  ascii : ∀ c : Char, 32 ≤ c.toNat → c.toNat < 127 → Q c

theorem Usual.lits {Q : Char → Prop} (hQ : Usual Q) {s : List Char} (h : s.all (fun c => decide (32 ≤ c.toNat ∧ c.toNat < 127)) = true) : AllCh Q s := by
  intro c hc
  have := List.all_eq_true.1 h c hc
  simp only [decide_eq_true_eq] at this
  exact hQ.ascii c this.1 this.2

theorem Usual.digits {Q : Char → Prop} (hQ : Usual Q) {s : List Char} (h : Digits s) : AllCh Q s := by
  intro c hc
  obtain ⟨h1, h2⟩ := h c hc
  have h1 : (48 : Nat) ≤ c.toNat := h1
  have h2 : c.toNat ≤ 57 := h2
  exact hQ.ascii c (by omega) (by omega)

theorem Usual.showNat {Q : Char → Prop} (hQ : Usual Q) (n : Nat) : AllCh Q (showNat n) := hQ.digits (digits_showNat n)

theorem Usual.showInt {Q : Char → Prop} (hQ : Usual Q) (i : Int) : AllCh Q (showInt i) := by
  unfold NS.showInt
  split
  · exact .cons (hQ.ascii _ (by decide) (by decide)) (hQ.showNat _)
  · exact hQ.showNat _

theorem Usual.floatLit {Q : Char → Prop} (hQ : Usual Q) {s : List Char} (h : FloatLit s) : AllCh Q s := by
  obtain ⟨sg, ip, fr, ex, rfl, h1, _, h2, h3, h4, _⟩ := h
  refine ((AllCh.app (AllCh.app ?_ (hQ.digits h2)) ?_).app ?_)
  · rcases h1 with rfl | rfl <;> exact hQ.lits (by decide)
  · rcases h3 with rfl | ⟨f, rfl, _, hf⟩
    · exact .nil
    · exact .cons (hQ.ascii _ (by decide) (by decide)) (hQ.digits hf)
  · rcases h4 with rfl | ⟨m, x, rfl, hm, _, hx⟩
    · exact .nil
    · refine .cons (hQ.ascii _ (by decide) (by decide)) (.app ?_ (hQ.digits hx))
      rcases hm with rfl | rfl <;> exact hQ.lits (by decide)

theorem Usual.float64 {Q : Char → Prop} (hQ : Usual Q) (hfl : FloatLaws fl) (x : BitVec 64) : AllCh Q (fl.show64 x) := by
  by_cases h : finite64 x
  · exact hQ.floatLit (hfl.lit64 x h)
  · have := hfl.nonfinite64 x h
    simp only [List.mem_cons, List.not_mem_nil, or_false] at this
    rcases this with e | e | e <;> rw [e] <;> exact hQ.lits (by decide)

theorem Usual.float32 {Q : Char → Prop} (hQ : Usual Q) (hfl : FloatLaws fl) (x : BitVec 32) : AllCh Q (fl.show32 x) := by
  by_cases h : finite32 x
  · exact hQ.floatLit (hfl.lit32 x h)
  · have := hfl.nonfinite32 x h
    simp only [List.mem_cons, List.not_mem_nil, or_false] at this
    rcases this with e | e | e <;> rw [e] <;> exact hQ.lits (by decide)

theorem Usual.dur {Q : Char → Prop} (hQ : Usual Q) (s n : Nat) : AllCh Q (durText s n) := by
  unfold durText
  refine (AllCh.app (AllCh.app (hQ.lits (by decide)) (hQ.showNat s)) ?_).app (hQ.lits (by decide))
  split
  · exact .app (hQ.lits (by decide)) (hQ.showNat n)
  · exact .nil

theorem Usual.label {Q : Char → Prop} (hQ : Usual Q) {nm : List Char} (h : AllCh Q nm) : AllCh Q (jsonLabel nm) :=
  .cons (hQ.ascii _ (by decide) (by decide)) (h.app (hQ.lits (by decide)))

theorem Usual.member {Q : Char → Prop} (hQ : Usual Q) {nm s : List Char} (h : AllCh Q nm) (hs : AllCh Q s) : AllCh Q (jsonMember nm s) :=
  (hQ.label h).app (.cons (hQ.ascii _ (by decide) (by decide)) hs)

/-! ## JSON -/

section json
variable {Q : Char → Prop}

theorem serJsonAll_ch {t : Ty} {vs : List Val} (h : ∀ v ∈ vs, AllCh Q (serJson env fl t v)) : ∀ x ∈ serJsonAll env fl t vs, AllCh Q x := by
  induction vs with
  | nil => simp [serJsonAll]
  | cons v vs ih =>
    intro x hx
    rcases List.mem_cons.1 (by simpa only [serJsonAll] using hx) with rfl | hx
    · exact h v (by simp)
    · exact ih (fun v hv => h v (by simp [hv])) x hx

theorem serJsonEntries_ch (hc : Q ':') {k t : Ty} {vs : List Val} (h : ∀ a b, Val.entry a b ∈ vs → AllCh Q (serJson env fl k a) ∧ AllCh Q (serJson env fl t b)) :
    ∀ x ∈ serJsonEntries env fl k t vs, AllCh Q x := by
  induction vs with
  | nil => simp [serJsonEntries]
  | cons v vs ih =>
    have ih := ih fun a b hm => h a b (by simp [hm])
    intro x hx
    cases v
    case entry a b =>
      rcases List.mem_cons.1 (by simpa only [serJsonEntries] using hx) with rfl | hx
      · have := h a b (by simp)
        exact this.1.app (.cons hc this.2)
      · exact ih x hx
    all_goals exact ih x (by simpa only [serJsonEntries] using hx)

theorem serJsonTys_ch {ts : List Ty} {vs : List Val} (h : ∀ v ∈ vs, ∀ t, AllCh Q (serJson env fl t v)) : ∀ x ∈ serJsonTys env fl ts vs, AllCh Q x := by
  induction ts generalizing vs with
  | nil => simp [serJsonTys]
  | cons t ts ih =>
    cases vs with
    | nil => simp [serJsonTys]
    | cons v vs =>
      intro x hx
      rcases List.mem_cons.1 (by simpa only [serJsonTys] using hx) with rfl | hx
      · exact h v (by simp) t
      · exact ih (fun v hv => h v (by simp [hv])) x hx

theorem key_ch {f : Field} (h : ∀ nm ∈ f.names, AllCh Q nm) : AllCh Q f.key := by
  unfold Field.key
  cases hr : f.rename with
  | none => exact h _ (by simp [Field.names])
  | some r => exact h _ (by simp [Field.names, hr])

theorem serJsonFields_ch (hQ : Usual Q) {nul : Bool} {fs : List Field} {vs : List Val} (hf : ∀ f ∈ fs, ∀ nm ∈ f.names, AllCh Q nm)
    (h : ∀ v ∈ vs, ∀ t, AllCh Q (serJson env fl t v)) : ∀ x ∈ serJsonFields env fl nul fs vs, AllCh Q x := by
  induction fs generalizing vs with
  | nil => simp [serJsonFields]
  | cons f fs ih =>
    cases vs with
    | nil => simp [serJsonFields]
    | cons v vs =>
      have ih := ih (vs := vs) (fun f hm => hf f (by simp [hm])) (fun v hv => h v (by simp [hv]))
      have hk := key_ch (hf f (by simp))
      intro x hx
      rw [serJsonFields] at hx
      split at hx
      · exact ih x hx
      · split at hx
        · split at hx
          · rcases List.mem_cons.1 hx with rfl | hx
            · exact hQ.member hk (hQ.lits (by decide))
            · exact ih x hx
          · exact ih x hx
        · rcases List.mem_cons.1 hx with rfl | hx
          · exact hQ.member hk (h v (by simp) _)
          · exact ih x hx

theorem serJsonVarFields_ch (hQ : Usual Q) {fs : List Field} {vs : List Val} (hf : ∀ f ∈ fs, ∀ nm ∈ f.names, AllCh Q nm)
    (h : ∀ v ∈ vs, ∀ t, AllCh Q (serJson env fl t v)) : AllCh Q (serJsonVarFields env fl fs vs) := by
  induction fs generalizing vs with
  | nil => simp [serJsonVarFields, AllCh]
  | cons f fs ih =>
    cases vs with
    | nil => simp [serJsonVarFields, AllCh]
    | cons v vs =>
      have ih := ih (vs := vs) (fun f hm => hf f (by simp [hm])) (fun v hv => h v (by simp [hv]))
      rw [serJsonVarFields]
      refine .app ?_ ih
      split
      · exact .nil
      · refine .app (hQ.member (hf f (by simp) _ (by simp [Field.names])) (h v (by simp) _)) ?_
        split
        · exact .nil
        · exact hQ.lits (by decide)

theorem serJson_ch (hQ : Usual Q) (hfl : FloatLaws fl) (hesc : ∀ c, AllCh Q (jsonEsc c))
    (hN : ∀ d ∈ env.defs, ∀ nm ∈ d.names, AllCh Q nm) (v : Val) : ∀ t, AllCh Q (serJson env fl t v) := by
  induction v using Val.sizeInd with
  | _ v ih =>
  intro t
  have hl : ∀ {s : List Char}, s.all (fun c => decide (32 ≤ c.toNat ∧ c.toNat < 127)) = true → AllCh Q s := fun h => hQ.lits h
  have ha : ∀ {c : Char}, 32 ≤ c.toNat ∧ c.toNat < 127 → Q c := fun h => hQ.ascii _ h.1 h.2
  have seq : ∀ {vs : List Val}, v = .seq vs → ∀ w ∈ vs, ∀ t, AllCh Q (serJson env fl t w) := by
    intro vs e w hw t
    have := Val.sizeOf_mem hw
    exact ih w (by subst e; simp; omega) t
  have ent : ∀ {vs : List Val}, v = .seq vs → ∀ a b, Val.entry a b ∈ vs → ∀ k t, AllCh Q (serJson env fl k a) ∧ AllCh Q (serJson env fl t b) := by
    intro vs e a b hm k t
    have := Val.sizeOf_mem hm
    simp only [Val.entry.sizeOf_spec] at this
    exact ⟨ih a (by subst e; simp; omega) k, ih b (by subst e; simp; omega) t⟩
  have str : ∀ {vs : List Val}, v = .struct vs → ∀ w ∈ vs, ∀ t, AllCh Q (serJson env fl t w) := by
    intro vs e w hw t
    have := Val.sizeOf_mem hw
    exact ih w (by subst e; simp; omega) t
  have var : ∀ {j : Nat} {vs : List Val}, v = .variant j vs → ∀ w ∈ vs, ∀ t, AllCh Q (serJson env fl t w) := by
    intro j vs e w hw t
    have := Val.sizeOf_mem hw
    exact ih w (by subst e; simp; omega) t
  have blk : ∀ {xs : List (List Char)} {sep : List Char} {o c : Char}, 32 ≤ o.toNat ∧ o.toNat < 127 → 32 ≤ c.toNat ∧ c.toNat < 127 →
      sep.all (fun c => decide (32 ≤ c.toNat ∧ c.toNat < 127)) = true → (∀ x ∈ xs, AllCh Q x) → AllCh Q (o :: (joinSep sep xs ++ [c])) :=
    fun ho hc hs h => .cons (ha ho) ((AllCh.join (hl hs) h).app (.cons (ha hc) .nil))
  unfold serJson
  split
  · exact hl (by decide)
  · split <;> exact hl (by decide)
  · exact hQ.showInt _
  · exact hQ.float32 hfl _
  · exact hQ.float64 hfl _
  · refine .cons (ha (by decide)) (.app ?_ (hl (by decide)))
    intro c hc
    obtain ⟨x, _, hx⟩ := List.mem_flatMap.1 hc
    exact hesc x c hx
  · exact hQ.dur _ _
  · split
    · exact hQ.dur _ _
    · exact hl (by decide)
  · exact hl (by decide)
  · exact ih _ (by simp <;> omega) _
  · exact blk (by decide) (by decide) (by decide) (serJsonAll_ch fun w hw => seq rfl w hw _)
  · exact blk (by decide) (by decide) (by decide) (serJsonAll_ch fun w hw => seq rfl w hw _)
  · exact blk (by decide) (by decide) (by decide) (serJsonAll_ch fun w hw => seq rfl w hw _)
  · exact blk (by decide) (by decide) (by decide) (serJsonAll_ch fun w hw => seq rfl w hw _)
  · exact blk (by decide) (by decide) (by decide) (serJsonAll_ch fun w hw => seq rfl w hw _)
  · exact blk (by decide) (by decide) (by decide) (serJsonTys_ch (seq rfl))
  · exact blk (by decide) (by decide) (by decide) (serJsonTys_ch (seq rfl))
  · exact blk (by decide) (by decide) (by decide) (serJsonTys_ch (seq rfl))
  · exact blk (by decide) (by decide) (by decide) (serJsonEntries_ch (ha (by decide)) fun a b hm => ent rfl a b hm _ _)
  · exact blk (by decide) (by decide) (by decide) (serJsonEntries_ch (ha (by decide)) fun a b hm => ent rfl a b hm _ _)
  · exact ih _ (by simp <;> omega) _
  · split
    · rename_i fs _ nul hd
      exact blk (by decide) (by decide) (by decide) (serJsonFields_ch hQ
        (fun f hf nm hm => hN _ (List.mem_of_getElem? hd) nm (List.mem_flatMap.2 ⟨f, hf, hm⟩)) (str rfl))
    · split
      · exact hl (by decide)
      · split
        · exact AllCh.join .nil (serJsonTys_ch (str rfl))
        · exact blk (by decide) (by decide) (by decide) (serJsonTys_ch (str rfl))
    · exact .nil
  · split
    · rename_i vars hd
      have hv : ∀ {j : Nat} {u : Variant}, vars[j]? = some u → ∀ nm ∈ u.names, AllCh Q nm :=
        fun hj nm hm => hN _ (List.mem_of_getElem? hd) nm (List.mem_flatMap.2 ⟨_, List.mem_of_getElem? hj, hm⟩)
      have hk : ∀ {nm : List Char} {rn : Option (List Char)} {sh : Shape}, (∀ x ∈ (Variant.mk nm rn sh).names, AllCh Q x) → AllCh Q (rn.getD nm) := by
        intro nm rn sh h
        cases rn with
        | none => exact h _ (by simp [Variant.names])
        | some r => exact h _ (by simp [Variant.names])
      split
      · rename_i hj; exact hQ.label (hk (hv hj))
      · rename_i hj
        exact .cons (ha (by decide)) ((hQ.member (hk (hv hj)) (blk (by decide) (by decide) (by decide) (serJsonTys_ch (var rfl)))).app (hl (by decide)))
      · rename_i nm rn fs hj
        refine .cons (ha (by decide)) ((hQ.member (hk (hv hj)) (.cons (ha (by decide)) (.app ?_ (hl (by decide))))).app (hl (by decide)))
        exact serJsonVarFields_ch hQ (fun f hf nm hm => hv hj nm (by
          simp only [Variant.names, List.cons_append, List.mem_cons, List.mem_append]
          exact .inr (.inr (List.mem_flatMap.2 ⟨f, hf, hm⟩)))) (var rfl)
      · exact .nil
    · exact .nil
  · split
    · exact ih _ (by simp <;> omega) _
    · exact .nil
  · exact .nil

end json

/-! ## RON -/

section ron
variable {Q : Char → Prop}

theorem serRonAll_ch {t : Ty} {vs : List Val} (h : ∀ v ∈ vs, AllCh Q (serRon env fl t v)) : ∀ x ∈ serRonAll env fl t vs, AllCh Q x := by
  induction vs with
  | nil => simp [serRonAll]
  | cons v vs ih =>
    intro x hx
    rcases List.mem_cons.1 (by simpa only [serRonAll] using hx) with rfl | hx
    · exact h v (by simp)
    · exact ih (fun v hv => h v (by simp [hv])) x hx

theorem serRonEntries_ch (hc : Q ':') {k t : Ty} {vs : List Val} (h : ∀ a b, Val.entry a b ∈ vs → AllCh Q (serRon env fl k a) ∧ AllCh Q (serRon env fl t b)) :
    ∀ x ∈ serRonEntries env fl k t vs, AllCh Q x := by
  induction vs with
  | nil => simp [serRonEntries]
  | cons v vs ih =>
    have ih := ih fun a b hm => h a b (by simp [hm])
    intro x hx
    cases v
    case entry a b =>
      rcases List.mem_cons.1 (by simpa only [serRonEntries] using hx) with rfl | hx
      · have := h a b (by simp)
        exact this.1.app (.cons hc this.2)
      · exact ih x hx
    all_goals exact ih x (by simpa only [serRonEntries] using hx)

theorem serRonTys_ch {ts : List Ty} {vs : List Val} (h : ∀ v ∈ vs, ∀ t, AllCh Q (serRon env fl t v)) : ∀ x ∈ serRonTys env fl ts vs, AllCh Q x := by
  induction ts generalizing vs with
  | nil => simp [serRonTys]
  | cons t ts ih =>
    cases vs with
    | nil => simp [serRonTys]
    | cons v vs =>
      intro x hx
      rcases List.mem_cons.1 (by simpa only [serRonTys] using hx) with rfl | hx
      · exact h v (by simp) t
      · exact ih (fun v hv => h v (by simp [hv])) x hx

theorem serRonFields_ch (hQ : Usual Q) {attrs : Bool} {fs : List Field} {vs : List Val} (hf : ∀ f ∈ fs, ∀ nm ∈ f.names, AllCh Q nm)
    (h : ∀ v ∈ vs, ∀ t, AllCh Q (serRon env fl t v)) : ∀ x ∈ serRonFields env fl attrs fs vs, AllCh Q x := by
  induction fs generalizing vs with
  | nil => simp [serRonFields]
  | cons f fs ih =>
    cases vs with
    | nil => simp [serRonFields]
    | cons v vs =>
      have ih := ih (vs := vs) (fun f hm => hf f (by simp [hm])) (fun v hv => h v (by simp [hv]))
      intro x hx
      rw [serRonFields] at hx
      split at hx
      · exact ih x hx
      · split at hx
        · exact ih x hx
        · rcases List.mem_cons.1 hx with rfl | hx
          · refine .app ?_ (.cons (hQ.ascii _ (by decide) (by decide)) (h v (by simp) _))
            split
            · exact key_ch (hf f (by simp))
            · exact hf f (by simp) _ (by simp [Field.names])
          · exact ih x hx

theorem serRon_ch (hQ : Usual Q) (hfl : FloatLaws fl) (hesc : ∀ c, AllCh Q (ronEsc c))
    (hN : ∀ d ∈ env.defs, ∀ nm ∈ d.names, AllCh Q nm) (v : Val) : ∀ t, AllCh Q (serRon env fl t v) := by
  induction v using Val.sizeInd with
  | _ v ih =>
  intro t
  have hl : ∀ {s : List Char}, s.all (fun c => decide (32 ≤ c.toNat ∧ c.toNat < 127)) = true → AllCh Q s := fun h => hQ.lits h
  have ha : ∀ {c : Char}, 32 ≤ c.toNat ∧ c.toNat < 127 → Q c := fun h => hQ.ascii _ h.1 h.2
  have seq : ∀ {vs : List Val}, v = .seq vs → ∀ w ∈ vs, ∀ t, AllCh Q (serRon env fl t w) := by
    intro vs e w hw t
    have := Val.sizeOf_mem hw
    exact ih w (by subst e; simp; omega) t
  have ent : ∀ {vs : List Val}, v = .seq vs → ∀ a b, Val.entry a b ∈ vs → ∀ k t, AllCh Q (serRon env fl k a) ∧ AllCh Q (serRon env fl t b) := by
    intro vs e a b hm k t
    have := Val.sizeOf_mem hm
    simp only [Val.entry.sizeOf_spec] at this
    exact ⟨ih a (by subst e; simp; omega) k, ih b (by subst e; simp; omega) t⟩
  have str : ∀ {vs : List Val}, v = .struct vs → ∀ w ∈ vs, ∀ t, AllCh Q (serRon env fl t w) := by
    intro vs e w hw t
    have := Val.sizeOf_mem hw
    exact ih w (by subst e; simp; omega) t
  have var : ∀ {j : Nat} {vs : List Val}, v = .variant j vs → ∀ w ∈ vs, ∀ t, AllCh Q (serRon env fl t w) := by
    intro j vs e w hw t
    have := Val.sizeOf_mem hw
    exact ih w (by subst e; simp; omega) t
  have blk : ∀ {xs : List (List Char)} {sep : List Char} {o c : Char}, 32 ≤ o.toNat ∧ o.toNat < 127 → 32 ≤ c.toNat ∧ c.toNat < 127 →
      sep.all (fun c => decide (32 ≤ c.toNat ∧ c.toNat < 127)) = true → (∀ x ∈ xs, AllCh Q x) → AllCh Q (o :: (joinSep sep xs ++ [c])) :=
    fun ho hc hs h => .cons (ha ho) ((AllCh.join (hl hs) h).app (.cons (ha hc) .nil))
  have cms : ∀ {xs : List (List Char)} {o c : Char}, 32 ≤ o.toNat ∧ o.toNat < 127 → 32 ≤ c.toNat ∧ c.toNat < 127 →
      (∀ x ∈ xs, AllCh Q x) → AllCh Q (o :: (commaEach xs ++ [c])) :=
    fun ho hc h => .cons (ha ho) ((AllCh.commas (ha (by decide)) h).app (.cons (ha hc) .nil))
  unfold serRon
  split
  · exact hl (by decide)
  · split <;> exact hl (by decide)
  · exact hQ.showInt _
  · exact hQ.float32 hfl _
  · exact hQ.float64 hfl _
  · refine .cons (ha (by decide)) (.app ?_ (hl (by decide)))
    intro c hc
    obtain ⟨x, _, hx⟩ := List.mem_flatMap.1 hc
    exact hesc x c hx
  · exact hQ.dur _ _
  · split
    · exact hQ.dur _ _
    · exact hl (by decide)
  · exact hl (by decide)
  · exact ih _ (by simp <;> omega) _
  · exact cms (by decide) (by decide) (serRonAll_ch fun w hw => seq rfl w hw _)
  · exact blk (by decide) (by decide) (by decide) (serRonAll_ch fun w hw => seq rfl w hw _)
  · exact blk (by decide) (by decide) (by decide) (serRonAll_ch fun w hw => seq rfl w hw _)
  · exact blk (by decide) (by decide) (by decide) (serRonAll_ch fun w hw => seq rfl w hw _)
  · exact blk (by decide) (by decide) (by decide) (serRonAll_ch fun w hw => seq rfl w hw _)
  · exact blk (by decide) (by decide) (by decide) (serRonTys_ch (seq rfl))
  · exact blk (by decide) (by decide) (by decide) (serRonTys_ch (seq rfl))
  · exact blk (by decide) (by decide) (by decide) (serRonTys_ch (seq rfl))
  · exact cms (by decide) (by decide) (serRonEntries_ch (ha (by decide)) fun a b hm => ent rfl a b hm _ _)
  · exact cms (by decide) (by decide) (serRonEntries_ch (ha (by decide)) fun a b hm => ent rfl a b hm _ _)
  · exact ih _ (by simp <;> omega) _
  · split
    · rename_i fs _ nul hd
      exact cms (by decide) (by decide) (serRonFields_ch hQ
        (fun f hf nm hm => hN _ (List.mem_of_getElem? hd) nm (List.mem_flatMap.2 ⟨f, hf, hm⟩)) (str rfl))
    · exact blk (by decide) (by decide) (by decide) (serRonTys_ch (str rfl))
    · exact .nil
  · split
    · rename_i vars hd
      have hv : ∀ {j : Nat} {u : Variant}, vars[j]? = some u → ∀ nm ∈ u.names, AllCh Q nm :=
        fun hj nm hm => hN _ (List.mem_of_getElem? hd) nm (List.mem_flatMap.2 ⟨_, List.mem_of_getElem? hj, hm⟩)
      split
      · rename_i hj; exact hv hj _ (by simp [Variant.names])
      · rename_i hj
        exact (hv hj _ (by simp [Variant.names])).app (blk (by decide) (by decide) (by decide) (serRonTys_ch (var rfl)))
      · rename_i nm rn fs hj
        refine (hv hj _ (by simp [Variant.names])).app (cms (by decide) (by decide) ?_)
        exact serRonFields_ch hQ (fun f hf nm hm => hv hj nm (by
          simp only [Variant.names, List.cons_append, List.mem_cons, List.mem_append]
          exact .inr (.inr (List.mem_flatMap.2 ⟨f, hf, hm⟩)))) (var rfl)
      · exact .nil
    · exact .nil
  · split
    · exact ih _ (by simp <;> omega) _
    · exact .nil
  · exact .nil

end ron

end NS
