import Verif.Model.ErrText
import Verif.Lemmas.TomlParse
import Verif.Lemmas.GenWrite
/-! # The texts of errors -/
namespace NS

/-- A run of digits ended by something else is read in one way. -/
theorem head_digits {c d : Char} {xs ys : List Char} (hc : isDig c = false) (hd : isDig d = false) :
    ∀ {ds es : List Char}, (∀ x ∈ ds, isDig x = true) → (∀ x ∈ es, isDig x = true) →
    ds ++ c :: xs = es ++ d :: ys → ds = es ∧ c = d ∧ xs = ys
  | [], [], _, _, h => by simpa using h
  | [], e :: es, _, he, h => by
    have := he e (by simp)
    simp only [List.nil_append, List.cons_append, List.cons.injEq] at h
    rw [← h.1, hc] at this; cases this
  | a :: ds, [], hs, _, h => by
    have := hs a (by simp)
    simp only [List.nil_append, List.cons_append, List.cons.injEq] at h
    rw [h.1, hd] at this; cases this
  | a :: ds, e :: es, hs, he, h => by
    simp only [List.cons_append, List.cons.injEq] at h
    obtain ⟨h1, h2⟩ := head_digits hc hd (fun x hx => hs x (by simp [hx])) (fun x hx => he x (by simp [hx])) h.2
    exact ⟨by rw [h.1, h1], h2⟩

/-- The same from the end. -/
theorem tail_digits {c d : Char} {xs ys : List Char} (hc : isDig c = false) (hd : isDig d = false)
    {ds es : List Char} (h1 : ∀ x ∈ ds, isDig x = true) (h2 : ∀ x ∈ es, isDig x = true)
    (h : xs ++ c :: ds = ys ++ d :: es) : ds = es ∧ c = d ∧ xs = ys := by
  have h := congrArg List.reverse h
  simp only [List.reverse_append, List.reverse_cons, List.append_assoc, List.singleton_append] at h
  obtain ⟨a, b, e⟩ := head_digits hc hd (fun x hx => h1 x (by simpa using hx)) (fun x hx => h2 x (by simpa using hx)) h
  exact ⟨List.reverse_inj.1 a, b, List.reverse_inj.1 e⟩

theorem dig_colon : isDig ':' = false := by decide

/-- The position at the end of a text is read in one way. -/
theorem posText_inj {p p' : List Char} {l l' c c' : Nat} (h : p ++ posText l c = p' ++ posText l' c') :
    p = p' ∧ l = l' ∧ c = c' := by
  have e1 : " col:".toList = [' ', 'c', 'o', 'l'] ++ [':'] := by decide
  have e2 : ", line:".toList = [',', ' ', 'l', 'i', 'n', 'e'] ++ [':'] := by decide
  unfold posText at h
  rw [e1, e2] at h
  have h : (p ++ [',', ' ', 'l', 'i', 'n', 'e'] ++ [':'] ++ showNat (l + 1) ++ [' ', 'c', 'o', 'l']) ++ ':' :: showNat (c + 1) =
      (p' ++ [',', ' ', 'l', 'i', 'n', 'e'] ++ [':'] ++ showNat (l' + 1) ++ [' ', 'c', 'o', 'l']) ++ ':' :: showNat (c' + 1) := by
    simpa only [List.append_assoc, List.cons_append, List.nil_append] using h
  obtain ⟨h1, _, h2⟩ := tail_digits dig_colon dig_colon (fun _ => showNat_dig) (fun _ => showNat_dig) h
  have h3 := List.append_cancel_right h2
  have h3 : (p ++ [',', ' ', 'l', 'i', 'n', 'e']) ++ ':' :: showNat (l + 1) = (p' ++ [',', ' ', 'l', 'i', 'n', 'e']) ++ ':' :: showNat (l' + 1) := by
    simpa only [List.append_assoc, List.cons_append, List.nil_append] using h3
  obtain ⟨h4, _, h5⟩ := tail_digits dig_colon dig_colon (fun _ => showNat_dig) (fun _ => showNat_dig) h3
  have := Derive.showNat_inj h1
  have := Derive.showNat_inj h4
  exact ⟨List.append_cancel_right h5, by omega, by omega⟩

theorem showInt_injE {i j : Int} (h : showInt i = showInt j) : i = j := by
  unfold showInt at h
  split at h <;> split at h
  · have := Derive.showNat_inj (List.cons.inj h).2; omega
  · have := showNat_dig (n := j.natAbs) (c := '-') (by rw [← h]; simp)
    exact absurd this (by decide)
  · have := showNat_dig (n := i.natAbs) (c := '-') (by rw [h]; simp)
    exact absurd this (by decide)
  · have := Derive.showNat_inj h; omega

/-- A text without spaces followed by a space is read in one way. -/
theorem head_space {xs ys : List Char} : ∀ {a b : List Char}, ' ' ∉ a → ' ' ∉ b → a ++ ' ' :: xs = b ++ ' ' :: ys → a = b ∧ xs = ys
  | [], [], _, _, h => by simpa using h
  | [], e :: es, _, he, h => by
    simp only [List.nil_append, List.cons_append, List.cons.injEq] at h
    exact absurd (by rw [← h.1]; simp) he
  | a :: ds, [], hs, _, h => by
    simp only [List.nil_append, List.cons_append, List.cons.injEq] at h
    exact absurd (by rw [h.1]; simp) hs
  | a :: ds, e :: es, hs, he, h => by
    simp only [List.cons_append, List.cons.injEq] at h
    obtain ⟨h1, h2⟩ := head_space (fun hx => hs (by simp [hx])) (fun hx => he (by simp [hx])) h.2
    exact ⟨by rw [h.1, h1], h2⟩

theorem showNat_nospace (n : Nat) : ' ' ∉ showNat n := fun h => absurd (showNat_dig h) (by decide)
theorem showInt_nospace (i : Int) : ' ' ∉ showInt i := by
  unfold showInt
  split
  · simp [showNat_nospace]
  · exact showNat_nospace _

end NS
