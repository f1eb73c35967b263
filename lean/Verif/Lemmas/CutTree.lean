import Verif.Lemmas.CutRead
/-! Reading a JSON text that breaks off: all readers, in step with the tree. -/
namespace NS
variable {fl : FloatOps} {env : Env}

/-! ## Trees and their first lexemes -/

theorem JTree.cases_tok {J : JTree} {tail : List Lexeme} {s : PSt} (h : JFeeds fl (J.lexemes ++ tail) s) :
    Over fl s ∨ (∃ l, J.lexemes = [l] ∧ s.tok = jtok l ∧ (∀ k, l = .str k → s.strbuf = k ∧ J = .str k) ∧ ((jtok l).leaf = true ∨ jtok l = .str) ∧
        (∀ v, jtok l = .u64 v → J = .num (.nat v)) ∧ Ahead fl tail s.cur.txt) ∨
      (∃ xs tr, J = .arr xs tr ∧ s.tok = .blockOpen) ∨ ∃ ms tr, J = .obj ms tr ∧ s.tok = .curlyOpen := by
  cases J with
  | null =>
    rw [JTree.lexemes] at h
    exact h.imp id fun h => .inl ⟨_, by rw [JTree.lexemes], h.1, fun k e => (by cases e), .inl rfl, fun v e => (by cases e), h.2.2⟩
  | bool b =>
    cases b <;> rw [JTree.lexemes] at h <;>
    exact h.imp id fun h => .inl ⟨_, by rw [JTree.lexemes], h.1, fun k e => (by cases e), .inl rfl, fun v e => (by cases e), h.2.2⟩
  | num n =>
    rw [JTree.lexemes] at h
    refine h.imp id fun h => .inl ⟨_, by rw [JTree.lexemes], h.1, fun k e => (by cases e), .inl (by cases n <;> rfl), fun v e => ?_, h.2.2⟩
    cases n <;> cases e
    rfl
  | str k =>
    rw [JTree.lexemes] at h
    exact h.imp id fun h => .inl ⟨_, by rw [JTree.lexemes], h.1, fun k' e => ⟨h.2.1 k' e, by injection e with e; rw [e]⟩, .inr rfl,
      fun v e => (by cases e), h.2.2⟩
  | arr xs tr =>
    rw [JTree.lexemes_arr] at h
    exact h.imp id fun h => .inr (.inl ⟨xs, tr, rfl, h.1⟩)
  | obj xs tr =>
    rw [JTree.lexemes_obj] at h
    exact h.imp id fun h => .inr (.inr ⟨xs, tr, rfl, h.1⟩)

theorem Over.tok_ne {s : PSt} (h : Over fl s) {t : Tok} (h1 : t ≠ .eof) (h2 : t.leaf = false) : s.tok ≠ t := by
  rintro rfl
  rcases h with h | h
  · exact h1 h
  · rw [h2] at h; cases h.1

theorem Ahead.next' {ls : List Lexeme} {s s' : PSt} {txt} (h : Ahead fl ls txt) (hs : s.cur.txt = txt) (e : jNext fl s = .ok () s') :
    JFeeds fl ls s' := Ahead.next (by rw [hs]; exact h) e

/-- A tree that does not begin with a bracket is one token. -/
theorem JFeeds.leaf {J : JTree} {tail : List Lexeme} {s s' : PSt} (h : JFeeds fl (J.lexemes ++ tail) s) {α : Type} {a : α}
    (hl : Cuts.Leaf fl s a s') : JFeeds fl tail s' := by
  obtain ⟨h1, s0, h2, h3⟩ := hl
  rcases JTree.cases_tok h with h | ⟨_, _, _, _, _, _, h⟩ | ⟨_, _, _, h⟩ | ⟨_, _, _, h⟩
  · rcases h with h | ⟨h, h'⟩
    · rw [h] at h1; rcases h1 with h1 | h1 <;> cases h1
    · exact (Over.eof (h' s0 s' h2 h3)).feeds _
  · exact h.next' h2 h3
  · rw [h] at h1; rcases h1 with h1 | h1 <;> cases h1
  · rw [h] at h1; rcases h1 with h1 | h1 <;> cases h1

theorem JFeeds.expect {B : Nat} {t : Tok} {ls : List Lexeme} {s : PSt} (h : JFeeds fl (.punct t :: ls) s) (h1 : t ≠ .eof) (h2 : t.leaf = false) (w) :
    Cuts B (fun _ => expectTok (jNext fl) t w) s (fun _ s' => JFeeds fl ls s') :=
  (Cuts.expect w).weaken fun _ s' _ h' => by
    rcases h with h | h
    · exact absurd h'.1 (h.tok_ne h1 h2)
    · exact h.2.2.next h'.2

/-! ## Items -/

/-- What follows an item. -/
def afterItem (tr : Bool) : List (List Lexeme) → List Lexeme
  | [] => if tr then [.punct .comma] else []
  | x :: xs => .punct .comma :: commaLexemes tr (x :: xs)

theorem commaLexemes_after (tr : Bool) (x : List Lexeme) (xs : List (List Lexeme)) : commaLexemes tr (x :: xs) = x ++ afterItem tr xs := by
  cases xs <;> rfl

/-- A closing bracket. -/
def Closer (t : Tok) : Prop := t = .blockClose ∨ t = .curlyClose

theorem Closer.ne {t : Tok} (h : Closer t) : t ≠ .eof ∧ t.leaf = false ∧ t ≠ .comma ∧ t ≠ .str ∧ t ≠ .blockOpen ∧ t ≠ .curlyOpen := by
  rcases h with rfl | rfl <;> decide

theorem eatComma_eq (close w) (s : PSt) : eatComma (jNext fl) close w s =
    if s.tok = .comma then jNext fl s else if s.tok = close then .ok () s else errToken w s := by
  show (if s.tok = .comma then jNext fl else if s.tok = close then Pure.pure () else errToken w : PM Unit) s = _
  split
  · rfl
  · split <;> rfl

/-- The comma after an item. -/
theorem JFeeds.eat {B : Nat} {tr : Bool} {xs : List (List Lexeme)} {close : Tok} (hc : Closer close) {tail : List Lexeme} {s : PSt}
    (h : JFeeds fl (afterItem tr xs ++ .punct close :: tail) s) (w) :
    Cuts B (fun _ => eatComma (jNext fl) close w) s (fun _ s' => JFeeds fl (commaLexemes tr xs ++ .punct close :: tail) s') := by
  refine Ends.congr (x := fun _ s => if s.tok = .comma then jNext fl s else if s.tok = close then .ok () s else errToken w s) ?_
    fun _ => eatComma_eq close w s
  obtain ⟨c1, c2, c3, _⟩ := hc.ne
  by_cases hcm : s.tok = .comma
  · refine Ends.congr (x := fun _ => jNext fl) ?_ fun _ => if_pos hcm
    have key : ∀ ls, JFeeds fl (.punct .comma :: ls) s → Cuts B (fun _ => jNext fl) s (fun _ s' => JFeeds fl ls s') := by
      intro ls h
      refine Ends.weaken Cuts.nx fun _ s' _ e => ?_
      rcases h with h | h
      · exact absurd hcm (h.tok_ne (by decide) rfl)
      · exact h.2.2.next e
    cases xs with
    | nil =>
      cases tr with
      | true => exact key _ h
      | false =>
        rcases h with h | h
        · exact absurd hcm (h.tok_ne (by decide) rfl)
        · exact absurd (hcm.symm.trans h.1) (by exact fun h => c3 h.symm)
    | cons x xs => exact key _ h
  · by_cases hcl : s.tok = close
    · refine Ends.congr (x := fun _ => (Pure.pure () : PM Unit)) (Cuts.pure ?_) fun _ => by
        show (if s.tok = .comma then jNext fl s else if s.tok = close then .ok () s else errToken w s) = _
        rw [if_neg hcm, if_pos hcl]; rfl
      have bad : ∀ ls, JFeeds fl (.punct .comma :: ls) s → Over fl s := by
        intro ls h
        rcases h with h | h
        · exact h
        · exact absurd h.1 hcm
      cases xs with
      | nil =>
        cases tr with
        | true => exact (bad _ h).feeds _
        | false => exact h
      | cons x xs => exact (bad _ h).feeds _
    · refine Ends.congr (x := fun _ => (errToken w : PM Unit)) (Ends.fail trivial _) fun _ => by
        show (if s.tok = .comma then jNext fl s else if s.tok = close then .ok () s else errToken w s) = _
        rw [if_neg hcm, if_neg hcl]

/-- At the end of the text there is no comma. -/
theorem Over.eat {B : Nat} {close : Tok} (hc : Closer close) {s : PSt} (h : Over fl s) (w) {Q : Unit → PSt → Prop} :
    Cuts B (fun _ => eatComma (jNext fl) close w) s Q := by
  obtain ⟨c1, c2, _⟩ := hc.ne
  refine Ends.congr (x := fun _ => (errToken w : PM Unit)) (Ends.fail trivial _) fun _ => ?_
  rw [eatComma_eq, if_neg (h.tok_ne (by decide) rfl), if_neg (h.tok_ne c1 c2)]

/-- Nor a closing bracket after a comma. -/
theorem JFeeds.closeAfter {B : Nat} {tr : Bool} {xs : List (List Lexeme)} {close : Tok} (hc : Closer close) {tail : List Lexeme} {s : PSt}
    (h : JFeeds fl (afterItem tr xs ++ .punct close :: tail) s) (w) :
    Cuts B (fun _ => expectTok (jNext fl) close w) s (fun _ s' => JFeeds fl tail s') := by
  obtain ⟨c1, c2, c3, _⟩ := hc.ne
  have bad : ∀ ls, JFeeds fl (.punct .comma :: ls) s → Cuts B (fun _ => expectTok (jNext fl) close w) s (fun _ s' => JFeeds fl tail s') := by
    intro ls h
    refine (Cuts.expect w).weaken fun _ s' _ h' => ?_
    rcases h with h | h
    · exact absurd h'.1 (h.tok_ne c1 c2)
    · exact absurd (h'.1.symm.trans h.1) c3
  cases xs with
  | nil =>
    cases tr with
    | true => exact bad _ h
    | false => exact h.expect c1 c2 w
  | cons x xs => exact bad _ h

/-- The lexemes of an item begin neither with a closing bracket nor with a comma. -/
def Begins (ls : List Lexeme) : Prop := ∃ l r, ls = l :: r ∧ ¬ Closer (jtok l)

theorem JFeeds.close {B : Nat} {tr : Bool} {xs : List (List Lexeme)} (hx : ∀ x ∈ xs, Begins x) {close : Tok} (hc : Closer close) {tail : List Lexeme} {s : PSt}
    (h : JFeeds fl (commaLexemes tr xs ++ .punct close :: tail) s) (w) :
    Cuts B (fun _ => expectTok (jNext fl) close w) s (fun _ s' => JFeeds fl tail s') := by
  obtain ⟨c1, c2, c3, _⟩ := hc.ne
  cases xs with
  | nil => exact h.expect c1 c2 w
  | cons x xs =>
    obtain ⟨l, r, rfl, hl⟩ := hx x (by simp)
    rw [commaLexemes_after] at h
    refine (Cuts.expect w).weaken fun _ s' _ h' => ?_
    rcases h with h | h
    · exact absurd h'.1 (h.tok_ne c1 c2)
    · exact absurd (h.1.symm.trans h'.1 ▸ hc) hl

theorem JTree.begins (J : JTree) (r : List Lexeme) : Begins (J.lexemes ++ r) := by
  have key : ∀ l ls, ¬ Closer (jtok l) → Begins (l :: ls) := fun l ls h => ⟨l, ls, rfl, h⟩
  cases J with
  | null => rw [JTree.lexemes]; exact key _ _ (by rintro (h | h) <;> cases h)
  | bool b => cases b <;> rw [JTree.lexemes] <;> exact key _ _ (by rintro (h | h) <;> cases h)
  | num n => rw [JTree.lexemes]; exact key _ _ (by cases n <;> rintro (h | h) <;> cases h)
  | str k => rw [JTree.lexemes]; exact key _ _ (by rintro (h | h) <;> cases h)
  | arr xs tr => rw [JTree.lexemes_arr]; exact key _ _ (by rintro (h | h) <;> cases h)
  | obj ms tr => rw [JTree.lexemes_obj]; exact key _ _ (by rintro (h | h) <;> cases h)

/-! ## Loops -/

/-- A loop over items until the closing bracket. -/
theorem Cuts.whileNot {B : Nat} {α X : Type} {close : Tok} (hc : Closer close) {body : Nat → α → PM α} (V : α → Prop) (F : List X → PSt → Prop)
    (hov : ∀ a s, Over fl s → Cuts B (fun n => body n a) s (fun _ _ => False))
    (hnil : ∀ s, F [] s → Over fl s ∨ s.tok = close) (xs0 : List X)
    (hcons : ∀ x xs a s, x ∈ xs0 → V a → F (x :: xs) s → Over fl s ∨ s.tok ≠ close ∧ Cuts B (fun n => body n a) s (fun a' s' => V a' ∧ F xs s'))
    {a : α} {s : PSt} (hV : V a) (hF : F xs0 s) (hB : xs0.length < B) :
    Cuts B (fun n => NS.whileNot close (body n) n a) s (fun a' s' => V a' ∧ F [] s' ∧ s'.tok = close) := by
  obtain ⟨c1, c2, _⟩ := hc.ne
  have unf : ∀ b n a t, t.tok ≠ close → NS.whileNot close b (n + 1) a t = (b a >>= NS.whileNot close b n : PM α) t := by
    intro b n a t h
    show (if t.tok = close then Pure.pure a else _ : PM α) t = _
    rw [if_neg h]
  have key : ∀ (xs : List X) (a : α) (s : PSt), (∀ x ∈ xs, x ∈ xs0) → V a → F xs s →
      ∃ o, Good (fun _ => True) False False (fun a' s' => V a' ∧ F [] s' ∧ s'.tok = close) o ∧
        ∀ n n', B ≤ n → xs.length < n' → NS.whileNot close (body n) n' a s = o := by
    intro xs
    induction xs with
    | nil =>
      intro a s _ hV hF
      rcases hnil s hF with h | h
      · obtain ⟨o, g, e⟩ := hov a s h
        cases o with
        | ok a' s' => exact absurd g.2 id
        | err x y =>
          refine ⟨.err x y, trivial, fun n n' hn hn' => ?_⟩
          rw [show n' = n' - 1 + 1 by omega, unf _ _ _ _ (h.tok_ne c1 c2), M.bind_def, show body n a s = _ from e n hn]
        | panic => exact absurd g id
        | oof => exact absurd g id
      · refine ⟨.ok a s, ⟨trivial, hV, hF, h⟩, fun n n' _ hn' => ?_⟩
        rw [show n' = n' - 1 + 1 by omega]
        show (if s.tok = close then Pure.pure a else _ : PM α) s = _
        rw [if_pos h]; rfl
    | cons x xs ih =>
      intro a s hx hV hF
      have step : s.tok ≠ close → ∀ {R : α → PSt → Prop}, (∀ a' s', R a' s' → V a' ∧ F xs s') → Cuts B (fun n => body n a) s R →
          ∃ o, Good (fun _ => True) False False (fun a' s' => V a' ∧ F [] s' ∧ s'.tok = close) o ∧
          ∀ n n', B ≤ n → (x :: xs).length < n' → NS.whileNot close (body n) n' a s = o := by
        intro ht R hR ⟨o, g, e⟩
        cases o with
        | ok a' s' =>
          obtain ⟨hV', hF'⟩ := hR _ _ g.2
          obtain ⟨o', g', e'⟩ := ih a' s' (fun y hy => hx y (by simp [hy])) hV' hF'
          refine ⟨o', g', fun n n' hn hn' => ?_⟩
          rw [show n' = n' - 1 + 1 by simp at hn'; omega, unf _ _ _ _ ht, M.bind_ok (e n hn)]
          exact e' n (n' - 1) hn (by simp at hn'; omega)
        | err x y =>
          refine ⟨.err x y, trivial, fun n n' hn hn' => ?_⟩
          rw [show n' = n' - 1 + 1 by omega, unf _ _ _ _ ht, M.bind_def, show body n a s = _ from e n hn]
        | panic => exact absurd g id
        | oof => exact absurd g id
      rcases hcons x xs a s (hx x (by simp)) hV hF with h | ⟨h1, h2⟩
      · exact step (h.tok_ne c1 c2) (fun _ _ h => h.elim) (hov a s h)
      · exact step h1 (fun _ _ h => h) h2
  obtain ⟨o, g, e⟩ := key xs0 a s (fun _ h => h) hV hF
  exact ⟨o, g, fun n hn => e n n hn (by omega)⟩

/-- A loop over items as long as there are strings. -/
theorem Cuts.whileStr {B : Nat} {α X : Type} {body : Nat → α → PM α} (F : List X → PSt → Prop)
    (hnil : ∀ s, F [] s → s.tok ≠ .str) (xs0 : List X)
    (hcons : ∀ x xs a s, x ∈ xs0 → F (x :: xs) s → s.tok = .str → Cuts B (fun n => body n a) s (fun _ s' => F xs s'))
    {a : α} {s : PSt} (hF : F xs0 s) (hB : xs0.length < B) :
    Cuts B (fun n => NS.whileIs .str (body n) n a) s (fun _ s' => ∃ xs, (∀ x ∈ xs, x ∈ xs0) ∧ F xs s') := by
  have unf : ∀ b n a t, t.tok = .str → NS.whileIs .str b (n + 1) a t = (b a >>= NS.whileIs .str b n : PM α) t := by
    intro b n a t h
    show (if t.tok = .str then _ else Pure.pure a : PM α) t = _
    rw [if_pos h]
  have key : ∀ (xs : List X) (a : α) (s : PSt), (∀ x ∈ xs, x ∈ xs0) → F xs s →
      ∃ o, Good (fun _ => True) False False (fun _ s' => ∃ xs, (∀ x ∈ xs, x ∈ xs0) ∧ F xs s') o ∧
        ∀ n n', B ≤ n → xs.length < n' → NS.whileIs .str (body n) n' a s = o := by
    intro xs
    induction xs with
    | nil =>
      intro a s hx hF
      have h := hnil s hF
      refine ⟨.ok a s, ⟨trivial, [], hx, hF⟩, fun n n' _ hn' => ?_⟩
      rw [show n' = n' - 1 + 1 by omega]
      show (if s.tok = .str then _ else Pure.pure a : PM α) s = _
      rw [if_neg h]; rfl
    | cons x xs ih =>
      intro a s hx hF
      by_cases ht : s.tok = .str
      · obtain ⟨o, g, e⟩ := hcons x xs a s (hx x (by simp)) hF ht
        cases o with
        | ok a' s' =>
          obtain ⟨o', g', e'⟩ := ih a' s' (fun y hy => hx y (by simp [hy])) g.2
          refine ⟨o', g', fun n n' hn hn' => ?_⟩
          rw [show n' = n' - 1 + 1 by simp at hn'; omega, unf _ _ _ _ ht, M.bind_ok (e n hn)]
          exact e' n (n' - 1) hn (by simp at hn'; omega)
        | err x y =>
          refine ⟨.err x y, trivial, fun n n' hn hn' => ?_⟩
          rw [show n' = n' - 1 + 1 by omega, unf _ _ _ _ ht, M.bind_def, show body n a s = _ from e n hn]
        | panic => exact absurd g id
        | oof => exact absurd g id
      · refine ⟨.ok a s, ⟨trivial, _, hx, hF⟩, fun n n' _ hn' => ?_⟩
        rw [show n' = n' - 1 + 1 by omega]
        show (if s.tok = .str then _ else Pure.pure a : PM α) s = _
        rw [if_neg ht]; rfl
  obtain ⟨o, g, e⟩ := key xs0 a s (fun _ h => h) hF
  exact ⟨o, g, fun n hn => e n n hn (by omega)⟩

end NS
