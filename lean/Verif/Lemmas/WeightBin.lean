import Verif.Lemmas.Weight
/-! How much the values hold that the binary reader returns. -/
set_option linter.unusedSimpArgs false
namespace NS
variable {env : Env}

theorem flatMap_length {α β : Type} (f : α → List β) (l : List α) : (l.flatMap f).length = (l.map fun x => (f x).length).sum := by
  induction l with
  | nil => simp
  | cons x l ih => simp [ih]

theorem utf8_length (s : List Char) : s.length ≤ (stdUtf8 s).length := by
  induction s with
  | nil => simp [stdUtf8]
  | cons c s ih =>
    have h1 : (String.utf8EncodeChar c).length = c.utf8Size := String.length_utf8EncodeChar c
    have h2 := c.utf8Size_pos
    simp only [stdUtf8, List.flatMap_cons, List.length_append, List.length_cons] at ih ⊢
    omega

theorem bsays_weight (hk : LawfulKeys env) (hm : BinModest env) {t : Ty} {bs : List Byte} {v : Val} (h : BinSays env t bs v) :
    v.weight 0 ≤ bs.length := by
  have parts : ∀ {α : Type} (ps : List α) (f : α → Val) (g : α → List Byte), (∀ p ∈ ps, (f p).weight 0 ≤ (g p).length) →
      weightAll 0 (ps.map f) ≤ (ps.flatMap g).length := by
    intro α ps f g ih
    rw [flatMap_length]
    have := weight_map (el := 0) (C := 1) (f := f) (g := fun p => (g p).length) (ps := ps) (by simpa using ih)
    simpa using this
  have entries : ∀ (ps : List ((List Byte × Val) × (List Byte × Val))), (∀ p ∈ ps, p.1.2.weight 0 ≤ p.1.1.length) →
      (∀ p ∈ ps, p.2.2.weight 0 ≤ p.2.1.length) →
      weightAll 0 (ps.map fun p => .entry p.1.2 p.2.2) ≤ (ps.flatMap fun q => q.1.1 ++ q.2.1).length := by
    intro ps h1 h2
    refine parts ps _ _ fun p hp => ?_
    have := h1 p hp
    have := h2 p hp
    simp only [Val.weight, List.length_append]
    omega
  induction h with
  | unit => simp [Val.weight]
  | bool => simp [Val.weight]
  | int h => rename_i k _ _ _ _; rw [Val.weight, h]; cases k <;> simp [IntKind.bytes]
  | f32 h => rw [Val.weight, h]; omega
  | f64 h => rw [Val.weight, h]; omega
  | str _ _ => have := utf8_length ‹_›; rw [Val.weight, List.length_append]; omega
  | dur h => rw [Val.weight, List.length_append, h]; omega
  | epoch => simp [Val.weight]
  | time => simp [Val.weight]
  | none => simp [Val.weight]
  | some _ ih => rw [Val.weight, List.length_cons]; omega
  | box _ ih => simpa [Val.weight] using ih
  | vec ps _ _ _ _ ih => have := parts ps (·.2) (·.1) ih; rw [Val.weight, List.length_append]; omega
  | linked ps _ _ _ ih => have := parts ps (·.2) (·.1) ih; rw [Val.weight, List.length_append]; omega
  | hset ps _ _ _ _ ih =>
    have := parts ps (·.2) (·.1) ih
    have := weight_firsts (el := 0) (ps.map (·.2))
    rw [Val.weight, List.length_append]; omega
  | bset ps _ _ _ hs ih =>
    have := parts ps (·.2) (·.1) ih
    have := weight_setOf (el := 0) hk hs
    rw [Val.weight, List.length_append]; omega
  | array ps _ _ ih => have := parts ps (·.2) (·.1) ih; rw [Val.weight]; omega
  | pair ps _ _ ih => have := parts ps (·.2.2) (·.2.1) ih; rw [Val.weight]; omega
  | triple ps _ _ ih => have := parts ps (·.2.2) (·.2.1) ih; rw [Val.weight]; omega
  | quad ps _ _ ih => have := parts ps (·.2.2) (·.2.1) ih; rw [Val.weight]; omega
  | hmap ps _ _ _ _ _ h3 h4 ih1 ih2 =>
    have := entries ps ih1 ih2
    have := weight_lastWins (el := 0) h3 (pairwise_of_keys (by rw [h4]; exact firsts_pairwise _))
    rw [Val.weight, List.length_append]; omega
  | bmap ps _ _ _ _ h3 h4 ih1 ih2 =>
    have := entries ps ih1 ih2
    have := weight_lastWins (el := 0) h3 (pairwise_of_lt_key hk h4)
    rw [Val.weight, List.length_append]; omega
  | struct ps hi hsk _ ih =>
    rw [Val.weight]
    refine parts ps (·.2.2) (·.2.1) fun q hq => ?_
    cases hc : q.1.skip with
    | true =>
      rw [hsk q hq hc]
      have := hm.skipped _ _ _ _ hi q.1 (List.mem_map.2 ⟨q, hq, rfl⟩) hc
      simp [this]
    | false => exact ih q hq hc
  | tupleStruct ps _ _ ih => have := parts ps (·.2.2) (·.2.1) ih; rw [Val.weight]; omega
  | variant _ h => rw [Val.weight, h]; simp [weightAll]
  | tupleVariant ps _ h _ _ _ ih =>
    have := parts ps (·.2.2) (·.2.1) ih
    rw [Val.weight, List.length_append, h]; omega
  | structVariant ps _ h _ _ _ ih =>
    have := parts ps (·.2.2) (·.2.1) ih
    rw [Val.weight, List.length_append, h]; omega
  | proxied hp _ ih => exact Nat.le_trans (by rw [Val.weight]; exact hm.proxy _ (List.mem_of_getElem? hp) _) ih

end NS
