import Verif.Lemmas.CutTree
/-! Reading a JSON text that breaks off: arrays, tuples, maps, structs, enums, times. -/
namespace NS
variable {fl : FloatOps} {env : Env} {B : Nat}

/-- The reader follows the tree, or fails. -/
def Follows (fl : FloatOps) (B : Nat) (x : Nat → PM Val) (J : JTree) : Prop :=
  ∀ s tail, JFeeds fl (J.lexemes ++ tail) s → Cuts B x s (fun _ s' => JFeeds fl tail s')

/-- The reader reads at most one token where there is no opening bracket. -/
def Leafy (fl : FloatOps) (B : Nat) (x : Nat → PM Val) : Prop :=
  ∀ s, s.tok ≠ .blockOpen ∧ s.tok ≠ .curlyOpen → Cuts B x s (Cuts.Leaf fl s)

/-- An item missing. -/
theorem Leafy.none {x : Nat → PM Val} (hx : Leafy fl B x) {close : Tok} (hc : Closer close) {s : PSt} (hs : Over fl s ∨ s.tok = close) (w)
    {α : Type} (g : Val → PM α) {Q : α → PSt → Prop} :
    Cuts B (fun n => x n >>= fun v => eatComma (jNext fl) close w >>= fun _ => g v) s Q := by
  obtain ⟨c1, c2, c3, c4, c5, c6⟩ := hc.ne
  have hne : s.tok ≠ .blockOpen ∧ s.tok ≠ .curlyOpen := by
    rcases hs with h | h
    · exact ⟨h.tok_ne (by decide) rfl, h.tok_ne (by decide) rfl⟩
    · rw [h]; exact ⟨c5, c6⟩
  refine Ends.bind (f := fun n v => eatComma (jNext fl) close w >>= fun _ => g v) (hx s hne) fun v s1 _ ⟨h1, s0, h2, h3⟩ => ?_
  have : Over fl s1 := by
    rcases hs with (h | ⟨h, h'⟩) | h
    · rw [h] at h1; rcases h1 with h1 | h1 <;> cases h1
    · exact .eof (h' s0 s1 h2 h3)
    · rw [h] at h1
      rcases h1 with h1 | h1
      · rw [c2] at h1; cases h1
      · exact absurd h1 c4
  exact Ends.bind (f := fun _ _ => g v) (this.eat hc w (Q := fun _ _ => False)) fun _ _ _ h => h.elim

theorem Follows.item {x : Nat → PM Val} {J : JTree} (hx : Follows fl B x J) {close : Tok} (hc : Closer close) {tr : Bool} {ys : List (List Lexeme)}
    {tail : List Lexeme} {s : PSt} (h : JFeeds fl (commaLexemes tr (J.lexemes :: ys) ++ .punct close :: tail) s) (w) {α : Type} (g : Val → α) :
    Cuts B (fun n => x n >>= fun v => eatComma (jNext fl) close w >>= fun _ => (Pure.pure (g v) : PM α)) s
      (fun _ s' => JFeeds fl (commaLexemes tr ys ++ .punct close :: tail) s') := by
  rw [commaLexemes_after, List.append_assoc] at h
  refine Ends.bind (f := fun n v => eatComma (jNext fl) close w >>= fun _ => (Pure.pure (g v) : PM α)) (hx s _ h) fun v s1 _ h1 => ?_
  exact Ends.bind (f := fun _ _ => Pure.pure (g v)) (h1.eat hc w) fun _ s2 _ h2 => Cuts.pure h2

theorem arr_of {J : JTree} {tail : List Lexeme} {s : PSt} (h : JFeeds fl (J.lexemes ++ tail) s) (ht : s.tok = .blockOpen) :
    ∃ xs tr, J = .arr xs tr ∧ ∀ s', jNext fl s = .ok () s' →
      JFeeds fl (commaLexemes tr (xs.map JTree.lexemes) ++ .punct .blockClose :: tail) s' := by
  rcases JTree.cases_tok h with h' | ⟨l, _, h', _, h2, _⟩ | ⟨xs, tr, rfl, _⟩ | ⟨_, _, _, h'⟩
  · exact absurd ht (h'.tok_ne (by decide) rfl)
  · rw [← h', ht] at h2; rcases h2 with h2 | h2 <;> cases h2
  · refine ⟨xs, tr, rfl, fun s' e => ?_⟩
    rw [JTree.lexemes_arr] at h
    rcases h with h | h
    · exact absurd ht (h.tok_ne (by decide) rfl)
    · have := h.2.2.next e
      simpa using this
  · rw [ht] at h'; cases h'

/-- The lexemes of a member. -/
def memLex (m : JTree × JTree) : List Lexeme := m.1.lexemes ++ .punct .colon :: m.2.lexemes

theorem obj_of {J : JTree} {tail : List Lexeme} {s : PSt} (h : JFeeds fl (J.lexemes ++ tail) s) (ht : s.tok = .curlyOpen) :
    ∃ ms tr, J = .obj ms tr ∧ ∀ s', jNext fl s = .ok () s' →
      JFeeds fl (commaLexemes tr (ms.map memLex) ++ .punct .curlyClose :: tail) s' := by
  rcases JTree.cases_tok h with h' | ⟨l, _, h', _, h2, _⟩ | ⟨_, _, _, h'⟩ | ⟨ms, tr, rfl, _⟩
  · exact absurd ht (h'.tok_ne (by decide) rfl)
  · rw [← h', ht] at h2; rcases h2 with h2 | h2 <;> cases h2
  · rw [ht] at h'; cases h'
  · refine ⟨ms, tr, rfl, fun s' e => ?_⟩
    rw [JTree.lexemes_obj] at h
    rcases h with h | h
    · exact absurd ht (h.tok_ne (by decide) rfl)
    · have := h.2.2.next e
      have e : commaLexemes tr (ms.map fun m => m.1.lexemes ++ .punct .colon :: m.2.lexemes) ++ [.punct .curlyClose] ++ tail =
          commaLexemes tr (ms.map memLex) ++ .punct .curlyClose :: tail := by
        rw [List.append_assoc]; rfl
      exact e ▸ this

theorem items_begin (xs : List JTree) : ∀ x ∈ xs.map JTree.lexemes, Begins x := by
  intro x hx
  obtain ⟨J, _, rfl⟩ := List.mem_map.1 hx
  have := J.begins []
  simpa using this

theorem members_begin (ms : List (JTree × JTree)) : ∀ x ∈ ms.map memLex, Begins x := by
  intro x hx
  obtain ⟨m, _, rfl⟩ := List.mem_map.1 hx
  exact m.1.begins _

/-- In front of an item or a closing bracket. -/
theorem feeds_tok {tr : Bool} {xs : List (List Lexeme)} (hx : ∀ x ∈ xs, Begins x) (hne : xs ≠ []) {close : Tok} (hc : Closer close)
    {tail : List Lexeme} {s : PSt} (h : JFeeds fl (commaLexemes tr xs ++ .punct close :: tail) s) : s.tok ≠ close := by
  cases xs with
  | nil => exact absurd rfl hne
  | cons x xs =>
    obtain ⟨l, r, rfl, hl⟩ := hx x (by simp)
    rw [commaLexemes_after] at h
    rcases h with h | h
    · exact h.tok_ne hc.ne.1 hc.ne.2.1
    · rw [h.1]; rintro e; exact hl (e ▸ hc)

/-- `Vec` and its like. -/
theorem Cuts.deSeq {x : Nat → PM Val} (hl : Leafy fl B x) {J : JTree} (hJ : ∀ xs tr, J = .arr xs tr → xs.length < B ∧ ∀ y ∈ xs, Follows fl B x y) (add) :
    Follows fl B (fun n => NS.deSeq (jNext fl) n (x n) add) J := by
  intro s tail hF
  refine Cuts.expectThen _ fun s1 ht e1 => ?_
  obtain ⟨xs, tr, rfl, hn⟩ := arr_of hF ht
  obtain ⟨hB, hJ⟩ := hJ xs tr rfl
  have hc : Closer .blockClose := .inl rfl
  refine Ends.bind (f := fun _ vs => blockClose (jNext fl) >>= fun _ => Pure.pure (Val.seq vs))
    (Cuts.whileNot hc (fun _ => True) (fun ys s => JFeeds fl (commaLexemes tr (ys.map JTree.lexemes) ++ .punct .blockClose :: tail) s)
      (body := fun n => seqItem (jNext fl) (x n) add) (a := [])
      (fun a s h => hl.none hc (.inl h) _ _) (fun s h => h.imp id fun h => h.1) xs (fun y ys a s hy _ h => ?_) trivial (hn s1 e1) hB) ?_
  · by_cases ho : Over fl s
    · exact .inl ho
    · refine .inr ⟨feeds_tok (items_begin (y :: ys)) (by simp) hc h, ?_⟩
      exact ((hJ y hy).item hc h _ (add a)).weaken fun _ _ _ h => ⟨trivial, h⟩
  · intro vs s2 _ ⟨_, h2, _⟩
    exact Ends.bind (f := fun _ _ => Pure.pure (Val.seq vs)) (JFeeds.expect (ls := tail) h2 (by decide) rfl _) fun _ s3 _ h3 => Cuts.pure h3

/-- Maps. -/
theorem Cuts.deMap {x y : Nat → PM Val} (hl : Leafy fl B x) {J : JTree}
    (hJ : ∀ ms tr, J = .obj ms tr → ms.length < B ∧ ∀ m ∈ ms, Follows fl B x m.1 ∧ Follows fl B y m.2) (add) :
    Follows fl B (fun n => NS.deMap (jNext fl) n (x n) (y n) add) J := by
  intro s tail hF
  refine Cuts.expectThen _ fun s1 ht e1 => ?_
  obtain ⟨ms, tr, rfl, hn⟩ := obj_of hF ht
  obtain ⟨hB, hJ⟩ := hJ ms tr rfl
  have hc : Closer .curlyClose := .inr rfl
  refine Ends.bind (f := fun _ vs => curlyClose (jNext fl) >>= fun _ => Pure.pure (Val.seq vs))
    (Cuts.whileNot hc (fun _ => True) (fun ys s => JFeeds fl (commaLexemes tr (ys.map memLex) ++ .punct .curlyClose :: tail) s)
      (body := fun n => mapItem (jNext fl) (x n) (y n) add) (a := [])
      (fun a s h => ?_) (fun s h => h.imp id fun h => h.1) ms (fun m rest a s hm _ h => ?_) trivial (hn s1 e1) hB) ?_
  · refine Ends.bind (f := fun n k => colon (jNext fl) >>= fun _ => y n >>= fun v => eatCommaCurly (jNext fl) >>= fun _ => Pure.pure (add a (.entry k v)))
      (hl s ⟨h.tok_ne (by decide) rfl, h.tok_ne (by decide) rfl⟩) fun v s1 _ ⟨h1, s0, h2, h3⟩ => ?_
    refine Cuts.miss ?_ _ _
    rcases h with h | ⟨_, h⟩
    · rw [h] at h1; rcases h1 with h1 | h1 <;> cases h1
    · rw [h s0 s1 h2 h3]; decide
  · by_cases ho : Over fl s
    · exact .inl ho
    · refine .inr ⟨feeds_tok (members_begin (m :: rest)) (by simp) hc h, ?_⟩
      rw [List.map_cons, commaLexemes_after, memLex] at h
      simp only [List.append_assoc, List.cons_append] at h
      refine Ends.bind (f := fun n k => colon (jNext fl) >>= fun _ => y n >>= fun v => eatCommaCurly (jNext fl) >>= fun _ => Pure.pure (add a (.entry k v)))
        ((hJ m hm).1 s _ h) fun k s1 _ h1 => ?_
      refine Ends.bind (f := fun n _ => y n >>= fun v => eatCommaCurly (jNext fl) >>= fun _ => Pure.pure (add a (.entry k v)))
        (h1.expect (by decide) rfl _) fun _ s2 _ h2 => ?_
      refine Ends.bind (f := fun n v => eatCommaCurly (jNext fl) >>= fun _ => Pure.pure (add a (.entry k v)))
        ((hJ m hm).2 s2 _ h2) fun v s3 _ h3 => ?_
      exact Ends.bind (f := fun _ _ => Pure.pure _) (h3.eat hc _) fun _ s4 _ h4 => Cuts.pure ⟨trivial, h4⟩
  · intro vs s2 _ ⟨_, h2, _⟩
    exact Ends.bind (f := fun _ _ => Pure.pure (Val.seq vs)) (JFeeds.expect (ls := tail) h2 (by decide) rfl _) fun _ s3 _ h3 => Cuts.pure h3

/-- Components. -/
theorem Cuts.tys {de : Nat → Ty → PM Val} {tr : Bool} {tail : List Lexeme} (one : Nat → Ty → PM Val)
    (hone0 : ∀ t s, (Over fl s ∨ s.tok = .blockClose) → (Leafy fl B fun n => de n t) → Cuts B (fun n => one n t) s (fun _ _ => False))
    (hone : ∀ t x (ys : List (List Lexeme)) s, (Follows fl B (fun n => de n t) x) → JFeeds fl (commaLexemes tr (x.lexemes :: ys) ++ .punct .blockClose :: tail) s →
      Cuts B (fun n => one n t) s (fun _ s' => JFeeds fl (commaLexemes tr ys ++ .punct .blockClose :: tail) s'))
    (all : Nat → List Ty → PM (List Val)) (h0 : ∀ n, all n [] = Pure.pure [])
    (h1 : ∀ n t ts, all n (t :: ts) = one n t >>= fun a => all n ts >>= fun as => Pure.pure (a :: as))
    {ts : List Ty} {xs : List JTree} {s : PSt} (hl : ∀ t ∈ ts, Leafy fl B fun n => de n t)
    (hf : ∀ p ∈ ts.zip xs, Follows fl B (fun n => de n p.1) p.2)
    (h : JFeeds fl (commaLexemes tr (xs.map JTree.lexemes) ++ .punct .blockClose :: tail) s) :
    Cuts B (fun n => all n ts) s (fun _ s' => ∃ ys : List JTree, JFeeds fl (commaLexemes tr (ys.map JTree.lexemes) ++ .punct .blockClose :: tail) s') := by
  induction ts generalizing xs s with
  | nil => simp only [h0]; exact Cuts.pure ⟨xs, h⟩
  | cons t ts ih =>
    simp only [h1]
    cases xs with
    | nil =>
      exact Ends.bind (f := fun n a => all n ts >>= fun as => Pure.pure (a :: as))
        (hone0 t s (h.imp id fun h => h.1) (hl t (by simp))) fun _ _ _ h => h.elim
    | cons x xs =>
      refine Ends.bind (f := fun n a => all n ts >>= fun as => Pure.pure (a :: as))
        (hone t x (xs.map JTree.lexemes) s (hf (t, x) (by simp)) h) fun a s1 _ h1 => ?_
      exact Ends.bind (f := fun n as => Pure.pure (a :: as)) (ih (fun u hu => hl u (by simp [hu])) (fun p hp => hf p (by simp [hp])) h1)
        fun _ s2 _ h2 => Cuts.pure h2

theorem Cuts.commaAfter {x : Nat → PM Val} {s : PSt} {close : Tok} {w} {Q : Val → PSt → Prop} {R : Val → PSt → Prop} (h : Cuts B x s R)
    (h' : ∀ v s', R v s' → Cuts B (fun _ => eatComma (jNext fl) close w >>= fun _ => (Pure.pure v : PM Val)) s' Q) :
    Cuts B (fun n => NS.commaAfter (x n) (eatComma (jNext fl) close w)) s Q := by
  obtain ⟨o, g, e⟩ := h
  cases o with
  | ok v s1 =>
    obtain ⟨o', g', e'⟩ := h' v s1 g.2
    refine ⟨o', g', fun n hn => ?_⟩
    simp only [NS.commaAfter, e n (by omega)]
    exact e' n (by omega)
  | err x1 s1 =>
    have tot : (∃ s2, eatComma (jNext fl) close w s1 = .ok () s2) ∨ ∃ e2 s2, eatComma (jNext fl) close w s1 = .err e2 s2 := by
      rw [eatComma_eq]
      split
      · exact jNext_total s1
      · split
        · exact .inl ⟨_, rfl⟩
        · exact .inr ⟨_, _, rfl⟩
    rcases tot with ⟨s2, e'⟩ | ⟨e2, s2, e'⟩
    · refine ⟨.err x1 s2, trivial, fun n hn => ?_⟩
      simp only [NS.commaAfter, e n hn, e']
    · refine ⟨.err e2 s2, trivial, fun n hn => ?_⟩
      simp only [NS.commaAfter, e n hn, e']
  | panic => exact absurd g id
  | oof => exact absurd g id

/-- The contents of tuple structs and tuple variants. -/
theorem Cuts.deTysEat {de : Nat → Ty → PM Val} {tr : Bool} {tail : List Lexeme} {ts : List Ty} {xs : List JTree} {s : PSt}
    (hl : ∀ t ∈ ts, Leafy fl B fun n => de n t) (hf : ∀ p ∈ ts.zip xs, Follows fl B (fun n => de n p.1) p.2)
    (h : JFeeds fl (commaLexemes tr (xs.map JTree.lexemes) ++ .punct .blockClose :: tail) s) :
    Cuts B (fun n => NS.deTysEat (de n) (eatCommaBlock (jNext fl)) ts) s
      (fun _ s' => ∃ ys : List JTree, JFeeds fl (commaLexemes tr (ys.map JTree.lexemes) ++ .punct .blockClose :: tail) s') :=
  Cuts.tys (de := de) (fun n t => thenEat (de n t) (eatCommaBlock (jNext fl))) (fun t s hs hl => hl.none (.inl rfl) hs _ _)
    (fun t x ys s hf h => hf.item (.inl rfl) h _ id) (fun n => NS.deTysEat (de n) (eatCommaBlock (jNext fl)))
    (fun _ => rfl) (fun _ _ _ => rfl) hl hf h

/-- The contents of built-in tuples. -/
theorem Cuts.deTysComma {de : Nat → Ty → PM Val} {tr : Bool} {tail : List Lexeme} {ts : List Ty} {xs : List JTree} {s : PSt}
    (hl : ∀ t ∈ ts, Leafy fl B fun n => de n t) (hf : ∀ p ∈ ts.zip xs, Follows fl B (fun n => de n p.1) p.2)
    (h : JFeeds fl (commaLexemes tr (xs.map JTree.lexemes) ++ .punct .blockClose :: tail) s) :
    Cuts B (fun n => NS.deTysComma (de n) (eatCommaBlock (jNext fl)) ts) s
      (fun _ s' => ∃ ys : List JTree, JFeeds fl (commaLexemes tr (ys.map JTree.lexemes) ++ .punct .blockClose :: tail) s') := by
  have hc : Closer .blockClose := .inl rfl
  refine Cuts.tys (de := de) (fun n t => NS.commaAfter (de n t) (eatCommaBlock (jNext fl))) (fun t s hs hl => ?_)
    (fun t x ys s hf h => ?_) (fun n => NS.deTysComma (de n) (eatCommaBlock (jNext fl)))
    (fun _ => rfl) (fun _ _ _ => rfl) hl hf h
  · have hne : s.tok ≠ .blockOpen ∧ s.tok ≠ .curlyOpen := by
      rcases hs with h | h
      · exact ⟨h.tok_ne (by decide) rfl, h.tok_ne (by decide) rfl⟩
      · rw [h]; exact ⟨by decide, by decide⟩
    refine Cuts.commaAfter (hl s hne) fun v s1 ⟨h1, s0, h2, h3⟩ => ?_
    have : Over fl s1 := by
      rcases hs with (h | ⟨h, h'⟩) | h
      · rw [h] at h1; rcases h1 with h1 | h1 <;> cases h1
      · exact .eof (h' s0 s1 h2 h3)
      · rw [h] at h1; rcases h1 with h1 | h1 <;> cases h1
    exact Ends.bind (f := fun _ _ => Pure.pure v) (this.eat hc _ (Q := fun _ _ => False)) fun _ _ _ h => h.elim
  · rw [commaLexemes_after, List.append_assoc] at h
    exact Cuts.commaAfter (hf s _ h) fun v s1 h1 =>
      Ends.bind (f := fun _ _ => Pure.pure v) (h1.eat hc _) fun _ s2 _ h2 => Cuts.pure h2

theorem Cuts.repeatEat {x : Nat → PM Val} {tr : Bool} {tail : List Lexeme} (hl : Leafy fl B x) (len : Nat) {xs : List JTree} {s : PSt}
    (hf : ∀ y ∈ xs, Follows fl B x y) (h : JFeeds fl (commaLexemes tr (xs.map JTree.lexemes) ++ .punct .blockClose :: tail) s) :
    Cuts B (fun n => repeatM (thenEat (x n) (eatCommaBlock (jNext fl))) len) s
      (fun _ s' => ∃ ys : List JTree, JFeeds fl (commaLexemes tr (ys.map JTree.lexemes) ++ .punct .blockClose :: tail) s') := by
  induction len generalizing xs s with
  | zero => exact Cuts.pure ⟨xs, h⟩
  | succ len ih =>
    cases xs with
    | nil =>
      exact Ends.bind (f := fun n a => repeatM (thenEat (x n) (eatCommaBlock (jNext fl))) len >>= fun as => Pure.pure (a :: as))
        (hl.none (.inl rfl) (h.imp id fun h => h.1) _ _ (Q := fun _ _ => False)) fun _ _ _ h => h.elim
    | cons y xs =>
      refine Ends.bind (f := fun n a => repeatM (thenEat (x n) (eatCommaBlock (jNext fl))) len >>= fun as => Pure.pure (a :: as))
        ((hf y (by simp)).item (.inl rfl) h _ id) fun a s1 _ h1 => ?_
      exact Ends.bind (f := fun n as => Pure.pure (a :: as)) (ih (fun y hy => hf y (by simp [hy])) h1) fun _ s2 _ h2 => Cuts.pure h2

end NS
