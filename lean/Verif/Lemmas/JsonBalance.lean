import Verif.Lemmas.JsonHalts
import Verif.Lemmas.JsonDen
/-! In the lexemes of a JSON value brackets are closed and colons are followed by values. -/
namespace NS
variable {fl : FloatOps}

/-- Every colon is followed by a lexeme that can begin a value. -/
def ColonsOk (ls : List Lexeme) : Prop :=
  ∀ pre post, ls = pre ++ .punct .colon :: post → ∃ l r, post = l :: r ∧ l.startsValue = true

/-- Closed, of depth 0, colons in order. -/
def Balanced (ls : List Lexeme) : Prop := BracketsClosed ls ∧ depth ls = 0 ∧ ColonsOk ls

theorem ColonsOk.append {a b : List Lexeme} (ha : ColonsOk a) (hb : ColonsOk b) : ColonsOk (a ++ b) := by
  intro pre post h
  rcases List.append_eq_append_iff.1 h with ⟨c, h1, h2⟩ | ⟨c, h1, h2⟩
  · exact hb c post h2
  · cases c with
    | nil => exact hb [] post (by simpa using h2.symm)
    | cons x c =>
      simp at h2
      obtain ⟨rfl, rfl⟩ := h2
      obtain ⟨l, r, rfl, g⟩ := ha pre c h1
      exact ⟨l, r ++ b, rfl, g⟩

theorem BracketsClosed.append {a b : List Lexeme} (ha : BracketsClosed a) (hb : BracketsClosed b) : BracketsClosed (a ++ b) := by
  intro pre x post h hx
  rcases List.append_eq_append_iff.1 h with ⟨c, h1, h2⟩ | ⟨c, h1, h2⟩
  · exact hb c x post h2 hx
  · cases c with
    | nil => exact hb [] x post (by simpa using h2.symm) hx
    | cons y c =>
      simp at h2
      obtain ⟨rfl, rfl⟩ := h2
      obtain ⟨m, r, rfl, g⟩ := ha pre x c h1 hx
      exact ⟨m, r ++ b, by simp, g⟩

theorem Balanced.append {a b : List Lexeme} (ha : Balanced a) (hb : Balanced b) : Balanced (a ++ b) :=
  ⟨ha.1.append hb.1, by rw [depth_append, ha.2.1, hb.2.1]; rfl, ha.2.2.append hb.2.2⟩

theorem Balanced.nil : Balanced [] := ⟨by intro p b q h; simp at h, rfl, by intro p q h; simp at h⟩

theorem Balanced.single {l : Lexeme} (h : l.bracket = 0) (hc : l ≠ .punct .colon) : Balanced [l] := by
  refine ⟨?_, by rw [depth_one, h], ?_⟩
  · intro p b q e hb
    cases p with
    | nil => simp at e; rw [e.1] at h; omega
    | cons x p => simp at e
  · intro p q e
    cases p with
    | nil => simp at e; exact absurd e.1 hc
    | cons x p => simp at e

theorem Balanced.wrap {xs : List Lexeme} {a b : Lexeme} (h : Balanced xs) (ha : a.bracket = 1) (hb : b.bracket = -1) :
    Balanced (a :: (xs ++ [b])) := by
  have hc : ∀ l : Lexeme, l.bracket ≠ 0 → ColonsOk [l] := by
    intro l hl p q e
    cases p with
    | nil => simp at e; rw [e.1] at hl; exact absurd rfl hl
    | cons x p => simp at e
  have hcl : BracketsClosed [b] := by
    intro p c q e hc
    cases p with
    | nil => simp at e; rw [e.1] at hb; omega
    | cons x p => simp at e
  have hd : depth (a :: (xs ++ [b])) = 0 := by
    show depth ([a] ++ (xs ++ [b])) = 0
    rw [depth_append, depth_append, depth_one, depth_one, h.2.1, ha, hb]; rfl
  refine ⟨?_, hd, ?_⟩
  · intro p c q e hx
    cases p with
    | nil =>
      simp at e
      obtain ⟨rfl, rfl⟩ := e
      exact ⟨xs ++ [b], [], by simp, hd⟩
    | cons y p =>
      simp at e
      exact (h.1.append hcl) p c q e.2 hx
  · exact (hc a (by omega)).append (h.2.2.append (hc b (by omega)))

theorem Balanced.comma {tr : Bool} {xs : List (List Lexeme)} (h : ∀ x ∈ xs, Balanced x) : Balanced (commaLexemes tr xs) := by
  have hc : Balanced [.punct .comma] := .single rfl (by simp)
  induction xs with
  | nil => exact .nil
  | cons x xs ih =>
    have hx := h x (by simp)
    have hr := ih fun y hy => h y (by simp [hy])
    cases xs with
    | nil =>
      cases tr with
      | false => simpa [commaLexemes] using hx
      | true => simpa [commaLexemes] using hx.append hc
    | cons y xs =>
      rw [commaLexemes]
      exact hx.append (hc.append hr)

/-- The first lexeme of a value. -/
theorem JTree.starts (J : JTree) : ∃ l r, J.lexemes = l :: r ∧ l.startsValue = true := by
  cases J with
  | null => exact ⟨_, _, by rw [JTree.lexemes], rfl⟩
  | bool b => cases b <;> exact ⟨_, _, by rw [JTree.lexemes], rfl⟩
  | num t => exact ⟨_, _, by rw [JTree.lexemes], rfl⟩
  | str s => exact ⟨_, _, by rw [JTree.lexemes], rfl⟩
  | arr xs tr => exact ⟨_, _, by rw [JTree.lexemes], rfl⟩
  | obj xs tr => exact ⟨_, _, by rw [JTree.lexemes], rfl⟩

theorem JTree.balanced (J : JTree) : Balanced J.lexemes := by
  generalize hk : sizeOf J = k
  induction k using Nat.strongRecOn generalizing J with
  | ind k ih =>
  subst hk
  cases J with
  | null => rw [JTree.lexemes]; exact .single rfl (by simp)
  | bool b => cases b <;> rw [JTree.lexemes] <;> exact .single rfl (by simp)
  | num t => rw [JTree.lexemes]; exact .single rfl (by simp)
  | str s => rw [JTree.lexemes]; exact .single rfl (by simp)
  | arr xs tr =>
    rw [JTree.lexemes]
    refine .wrap (.comma ?_) rfl rfl
    intro x hx
    obtain ⟨y, hy, rfl⟩ := List.mem_map.1 hx
    have := List.sizeOf_lt_of_mem y.2
    exact ih _ (by simp; omega) _ rfl
  | obj ms tr =>
    rw [JTree.lexemes]
    refine .wrap (.comma ?_) rfl rfl
    intro x hx
    obtain ⟨y, hy, rfl⟩ := List.mem_map.1 hx
    have := List.sizeOf_lt_of_mem y.2
    have h : sizeOf y.1 = 1 + sizeOf y.1.1 + sizeOf y.1.2 := by cases y.1; rfl
    have h1 := ih (sizeOf y.1.1) (by simp; omega) _ rfl
    have h2 := ih (sizeOf y.1.2) (by simp; omega) _ rfl
    obtain ⟨l, r, e, hl⟩ := JTree.starts y.1.2
    have h3 : Balanced (.punct .colon :: y.1.2.lexemes) := by
      refine ⟨?_, ?_, ?_⟩
      · have : BracketsClosed [.punct .colon] := by
          intro p b q e hb
          cases p with
          | nil => simp at e; rw [← e.1] at hb; simp [Lexeme.bracket] at hb
          | cons x p => simp at e
        exact this.append h2.1
      · show depth ([.punct .colon] ++ _) = 0
        rw [depth_append, h2.2.1]; rfl
      · intro p q e'
        cases p with
        | nil => simp at e'; exact ⟨l, r, by rw [← e', e], hl⟩
        | cons x p => simp at e'; exact h2.2.2 p q e'.2
    exact h1.append h3

end NS
