import Verif.Lemmas.Truncate
import Verif.Props.RonWhole
import Verif.Lemmas.RonRoundTrip
/-! Truncated RON texts. -/
namespace NS
variable {fl : FloatOps} {env : Env}

/-- `+1` for an opening bracket of any kind, `-1` for a closing one. -/
def Lexeme.rbracket : Lexeme → Int
  | .punct .blockOpen | .punct .curlyOpen | .punct .parenOpen => 1
  | .punct .blockClose | .punct .curlyClose | .punct .parenClose => -1
  | _ => 0

def rdepth (ls : List Lexeme) : Int := (ls.map Lexeme.rbracket).sum

theorem rdepth_nil : rdepth [] = 0 := rfl
theorem rdepth_cons (l : Lexeme) (ls : List Lexeme) : rdepth (l :: ls) = l.rbracket + rdepth ls := by simp [rdepth]
theorem rdepth_app (a b : List Lexeme) : rdepth (a ++ b) = rdepth a + rdepth b := by simp [rdepth]

def RNested (ls : List Lexeme) : Prop := rdepth ls = 0 ∧ ∀ p q, ls = p ++ q → 0 ≤ rdepth p

theorem RNested.nil : RNested [] := ⟨rfl, fun p q h => by
  have : p = [] := by cases p with | nil => rfl | cons _ _ => cases h
  subst this; simp [rdepth_nil]⟩

theorem RNested.append {a b : List Lexeme} (ha : RNested a) (hb : RNested b) : RNested (a ++ b) := by
  refine ⟨by rw [rdepth_app, ha.1, hb.1]; rfl, fun p q h => ?_⟩
  rcases List.append_eq_append_iff.1 h with ⟨c, h1, h2⟩ | ⟨c, h1, h2⟩
  · subst h1
    rw [rdepth_app, ha.1]
    have := hb.2 c q h2
    omega
  · exact ha.2 p c h1

theorem RNested.single {l : Lexeme} (h : l.rbracket = 0) : RNested [l] := by
  refine ⟨by simp [rdepth, h], fun p q e => ?_⟩
  cases p with
  | nil => simp [rdepth_nil]
  | cons x p =>
    injection e with e1 e2
    have : p = [] := by cases p with | nil => rfl | cons _ _ => cases e2
    subst this e1
    simp [rdepth, h]

theorem RNested.wrap {xs : List Lexeme} {a b : Lexeme} (h : RNested xs) (ha : a.rbracket = 1) (hb : b.rbracket = -1) :
    RNested (a :: (xs ++ [b])) ∧ ∀ p q, a :: (xs ++ [b]) = p ++ q → p ≠ [] → q ≠ [] → rdepth p ≠ 0 := by
  have hd : rdepth (a :: (xs ++ [b])) = 0 := by rw [rdepth_cons, rdepth_app, h.1, ha]; simp [rdepth, hb]
  have key : ∀ p q, a :: (xs ++ [b]) = p ++ q → p ≠ [] → q ≠ [] → 0 < rdepth p := by
    intro p q e hp hq
    cases p with
    | nil => exact absurd rfl hp
    | cons x p =>
      injection e with e1 e2
      subst e1
      rw [rdepth_cons, ha]
      rcases List.append_eq_append_iff.1 e2 with ⟨c, h1, h2⟩ | ⟨c, h1, h2⟩
      · have : c = [] := by
          cases c with
          | nil => rfl
          | cons y c =>
            injection h2 with h2 h3
            cases c with
            | nil => exact absurd h3.symm (by simpa using hq)
            | cons _ _ => cases h3
        subst this
        subst h1
        simp [h.1]
      · have := h.2 p c h1
        omega
  refine ⟨⟨hd, fun p q e => ?_⟩, fun p q e hp hq => by have := key p q e hp hq; omega⟩
  by_cases hp : p = []
  · subst hp; simp [rdepth_nil]
  · by_cases hq : q = []
    · subst hq
      rw [List.append_nil] at e
      rw [← e, hd]
    · have := key p q e hp hq; omega

theorem RNested.comma {tr : Bool} : ∀ {xs : List (List Lexeme)}, (∀ x ∈ xs, RNested x) → RNested (commaLexemes tr xs)
  | [], _ => .nil
  | [x], h => by
    rw [commaLexemes]
    refine (h x (by simp)).append ?_
    split
    · exact .single rfl
    · exact .nil
  | x :: y :: r, h => by
    rw [commaLexemes]
    exact (h x (by simp)).append ((RNested.single (l := .punct .comma) rfl).append (RNested.comma fun z hz => h z (by simp [hz])))

/-- In brackets of which the first is closed by the last. -/
def RSolid (ls : List Lexeme) : Prop :=
  ∃ b r c, ls = b :: (r ++ [.punct c]) ∧ b.rbracket = 1 ∧ rdepth ls = 0 ∧ ∀ p q, ls = p ++ q → p ≠ [] → q ≠ [] → rdepth p ≠ 0

theorem RSolid.of {xs : List Lexeme} {b : Lexeme} {c : Tok} (h : RNested xs) (ha : b.rbracket = 1) (hb : (Lexeme.punct c).rbracket = -1) :
    RSolid (b :: (xs ++ [.punct c])) :=
  have := h.wrap ha hb
  ⟨_, _, _, rfl, ha, this.1.1, this.2⟩

theorem RSolid.nested {xs : List Lexeme} {b : Lexeme} {c : Tok} (h : RNested xs) (ha : b.rbracket = 1) (hb : (Lexeme.punct c).rbracket = -1) :
    RNested (b :: (xs ++ [.punct c])) := (h.wrap ha hb).1

theorem RTree.nested (x : RTree) : RNested x.lexemes := by
  match x with
  | .word w => rw [RTree.lexemes]; exact .single rfl
  | .num t => rw [RTree.lexemes]; exact .single rfl
  | .str s => rw [RTree.lexemes]; exact .single rfl
  | .list xs tr =>
    rw [RTree.lexemes]
    refine RSolid.nested (.comma fun y hy => ?_) rfl rfl
    obtain ⟨z, _, rfl⟩ := List.mem_map.1 hy
    have := List.sizeOf_lt_of_mem z.2
    exact RTree.nested z.1
  | .tuple xs tr =>
    rw [RTree.lexemes]
    refine RSolid.nested (.comma fun y hy => ?_) rfl rfl
    obtain ⟨z, _, rfl⟩ := List.mem_map.1 hy
    have := List.sizeOf_lt_of_mem z.2
    exact RTree.nested z.1
  | .fields ms tr =>
    rw [RTree.lexemes]
    refine RSolid.nested (.comma fun y hy => ?_) rfl rfl
    obtain ⟨⟨⟨a, b⟩, hm⟩, _, rfl⟩ := List.mem_map.1 hy
    have := List.sizeOf_lt_of_mem hm
    exact (RNested.single (l := .word a) rfl).append ((RNested.single (l := .punct .colon) rfl).append (RTree.nested b))
  | .map ms tr =>
    rw [RTree.lexemes]
    refine RSolid.nested (.comma fun y hy => ?_) rfl rfl
    obtain ⟨⟨⟨a, b⟩, hm⟩, _, rfl⟩ := List.mem_map.1 hy
    have := List.sizeOf_lt_of_mem hm
    exact (RTree.nested a).append ((RNested.single (l := .punct .colon) rfl).append (RTree.nested b))
  | .ctor w b =>
    rw [RTree.lexemes]
    exact (RNested.single (l := .word w) rfl).append (RTree.nested b)
termination_by sizeOf x
decreasing_by all_goals first | (simp at this ⊢; omega) | (simp; omega)

/-- A tree is a single lexeme, or begins with a word, or is in brackets. -/
theorem RTree.form (x : RTree) : (∃ l, x.lexemes = [l] ∧ l.rbracket = 0) ∨ (∃ w r, x.lexemes = .word w :: r) ∨ RSolid x.lexemes := by
  cases x with
  | word w => exact .inl ⟨_, by rw [RTree.lexemes], rfl⟩
  | num w => exact .inl ⟨_, by rw [RTree.lexemes], rfl⟩
  | str w => exact .inl ⟨_, by rw [RTree.lexemes], rfl⟩
  | ctor w b => exact .inr (.inl ⟨_, _, by rw [RTree.lexemes]⟩)
  | list xs tr =>
    rw [RTree.lexemes]
    refine .inr (.inr (RSolid.of (.comma fun y hy => ?_) rfl rfl))
    obtain ⟨z, _, rfl⟩ := List.mem_map.1 hy
    exact z.1.nested
  | tuple xs tr =>
    rw [RTree.lexemes]
    refine .inr (.inr (RSolid.of (.comma fun y hy => ?_) rfl rfl))
    obtain ⟨z, _, rfl⟩ := List.mem_map.1 hy
    exact z.1.nested
  | fields ms tr =>
    rw [RTree.lexemes]
    refine .inr (.inr (RSolid.of (.comma fun y hy => ?_) rfl rfl))
    obtain ⟨⟨⟨a, b⟩, hm⟩, _, rfl⟩ := List.mem_map.1 hy
    exact (RNested.single (l := .word a) rfl).append ((RNested.single (l := .punct .colon) rfl).append b.nested)
  | map ms tr =>
    rw [RTree.lexemes]
    refine .inr (.inr (RSolid.of (.comma fun y hy => ?_) rfl rfl))
    obtain ⟨⟨⟨a, b⟩, hm⟩, _, rfl⟩ := List.mem_map.1 hy
    exact a.nested.append ((RNested.single (l := .punct .colon) rfl).append b.nested)

/-! ## Scanning -/

theorem RScan.det {ls txt r} (h : RScan fl ls txt r) : ∀ {ls' r'}, RScan fl ls' txt r' →
    (∃ m, ls' = ls ++ m ∧ RScan fl m r r') ∨ ∃ m, ls = ls' ++ m ∧ RScan fl m r' r := by
  induction h with
  | nil => intro ls' r' h; exact .inl ⟨_, rfl, h⟩
  | @cons l ls w s a r hw hs hl ht ih =>
    intro ls' r' h'
    generalize hx : w ++ s ++ a = x at h'
    cases h' with
    | nil => exact .inr ⟨_, rfl, hx ▸ .cons hw hs hl ht⟩
    | @cons l' ls' w' s' a' r' hw' hs' hl' ht' =>
      have g := RScan.cons hw hs hl .nil
      have g' := RScan.cons hw' hs' hl' .nil
      rw [hx] at g
      generalize w' ++ s' ++ a' = y at *
      cases g.stream with
      | cons q1 q2 =>
        cases g'.stream with
        | cons q1' q2' =>
          cases q2; cases q2'
          obtain ⟨c, e1, e2⟩ := q1 { initSt rcol [] with cur := ⟨y, 0, 0⟩ } rfl
          obtain ⟨c', e1', e2'⟩ := q1' { initSt rcol [] with cur := ⟨y, 0, 0⟩ } rfl
          rw [e2] at e2'
          injection e2' with _ e2'
          injection e2' with f1 f2 f3 f4
          subst f1
          have hll : l = l' := by
            have a1 : AtL rtok (RLex fl) { initSt rcol [] with tok := rtok l, strbuf := l.sb.getD [], identbuf := l.ib.getD [] } l :=
              ⟨rfl, fun b hb => by simp [hb], fun b hb => by simp [hb], _, _, .inr g⟩
            have a2 : AtL rtok (RLex fl) { initSt rcol [] with tok := rtok l, strbuf := l.sb.getD [], identbuf := l.ib.getD [] } l' :=
              ⟨f2, fun b hb => by have := f3; simp [hb] at this; simpa [initSt] using this,
                fun b hb => by have := f4; simp [hb] at this; simpa [initSt] using this, _, _, .inr g'⟩
            exact a1.eq.trans a2.eq.symm
          subst hll
          rw [e1'] at e1
          subst e1
          rcases ih ht' with ⟨m, rfl, h⟩ | ⟨m, rfl, h⟩
          · exact .inl ⟨m, rfl, h⟩
          · exact .inr ⟨m, rfl, h⟩

theorem RSpells'.first {l s} (h : RSpells' fl l s) : ∃ c r, s = c :: r ∧
    (c ∈ ['(', '[', '{', '"'] → (l.rbracket = 1 ∧ c ≠ '"') ∨ (∃ b, l = .str b) ∧ c = '"') := by
  rcases h with h | ⟨t, rfl, f, ex, x, rfl, _⟩
  · cases h with
    | word h =>
      obtain ⟨c, r, rfl, h, _⟩ := h
      refine ⟨c, r, rfl, fun hc => ?_⟩
      simp only [List.mem_cons, List.not_mem_nil, or_false] at hc
      rcases hc with rfl | rfl | rfl | rfl <;> exact absurd h (by unfold IdStart; decide)
    | num h =>
      obtain ⟨y, r, e, hy⟩ := h.head
      refine ⟨y, r, e, fun hc => ?_⟩
      simp only [List.mem_cons, List.not_mem_nil, or_false] at hc
      rcases hc with rfl | rfl | rfl | rfl <;> rcases hy with h | h | h <;> exact absurd h (by decide)
    | str h => exact ⟨_, _, rfl, fun _ => .inr ⟨⟨_, rfl⟩, rfl⟩⟩
    | blockOpen | curlyOpen | parenOpen => exact ⟨_, _, rfl, fun _ => .inl ⟨rfl, by decide⟩⟩
    | _ => exact ⟨_, _, rfl, fun h => absurd h (by decide)⟩
  · exact ⟨_, _, rfl, fun h => absurd h (by decide)⟩

theorem RScan.cons_ne {l ls txt rest} (h : RScan fl (l :: ls) txt rest) : txt ≠ [] := by
  generalize e : l :: ls = m at h
  cases h with
  | nil => cases e
  | cons _ h _ _ => obtain ⟨c, r, rfl, _⟩ := h.first; simp

theorem RScan.nil_inv {txt rest} (h : RScan fl [] txt rest) : txt = rest := by
  generalize e : ([] : List Lexeme) = m at h
  cases h with
  | nil => rfl
  | cons => cases e

theorem RScan.of_nil {ls rest} (h : RScan fl ls [] rest) : ls = [] ∧ rest = [] := by
  cases ls with
  | nil => exact ⟨rfl, h.nil_inv.symm⟩
  | cons l ls => exact absurd rfl h.cons_ne

theorem RScan.extend {ls p rest} (h : RScan fl ls p rest) (q : List Char)
    (hl : ∀ l, ls.getLast? = some l → ∀ s c, RLongest l s c) : RScan fl ls (p ++ q) (rest ++ q) := by
  induction h with
  | nil => exact .nil
  | @cons l ls w s r rest h1 h2 h3 h4 ih =>
    have e : w ++ s ++ r ++ q = w ++ s ++ (r ++ q) := by simp
    rw [e]
    cases ls with
    | nil => exact .cons h1 h2 (fun c _ => hl l rfl s c) (by have := h4.nil_inv; subst this; exact .nil)
    | cons l' ls =>
      refine .cons h1 h2 ?_ (ih fun l'' h => hl l'' ?_)
      · rw [head_append_of_ne h4.cons_ne]; exact h3
      · rw [← h]; simp [List.getLast?_cons_cons]

/-- A text beginning with a bracket or a quote begins with a lexeme that is a bracket or a string. -/
theorem RScan.first {l ls c txt rest} (h : RScan fl (l :: ls) (c :: txt) rest) (hc : c ∈ ['(', '[', '{', '"']) :
    (l.rbracket = 1 ∧ c ≠ '"') ∨ (∃ b, l = .str b) ∧ c = '"' := by
  generalize e1 : l :: ls = m at h
  generalize e2 : c :: txt = x at h
  cases h with
  | nil => cases e1
  | @cons l' ls' w s r rest h1 h2 h3 h4 =>
    injection e1 with a b
    subst a b
    have : w = [] := by
      cases h1 with
      | nil => rfl
      | space h _ =>
        injection e2 with e2 _; subst e2
        rcases h with rfl | rfl | rfl | rfl <;> exact absurd hc (by decide)
      | line _ _ _ | block _ _ _ | short _ | char _ _ | escaped _ =>
        injection e2 with e2 _; subst e2; exact absurd hc (by decide)
    subst this
    obtain ⟨y, r', rfl, hy⟩ := h2.first
    injection e2 with e2 _
    subst e2
    exact hy hc

theorem ron_truncated_core {ls ls' : List Lexeme} {txt p q rest : List Char} (hx : RScan fl ls txt [])
    (hv : (∃ l, ls = [l]) ∨ RSolid ls)
    (e : txt = p ++ q) (hq : q ≠ []) (h' : RScan fl ls' p rest) (hne : ls' ≠ []) (h0 : rdepth ls' = 0)
    (hl : ∀ l, ls'.getLast? = some l → ∀ s c, RLongest l s c) : False := by
  subst e
  rcases hx.det (h'.extend q hl) with ⟨m, _, h⟩ | ⟨m, rfl, h⟩
  · have := h.of_nil.2; simp [hq] at this
  · have hm : m ≠ [] := by
      rintro rfl
      have := h.nil_inv
      simp [hq] at this
    rcases hv with ⟨l, el⟩ | ⟨b, r, c, _, _, _, hv⟩
    · have := congrArg List.length el
      have a1 := List.length_pos_iff.2 hne
      have a2 := List.length_pos_iff.2 hm
      simp at this
      omega
    · exact hv ls' m rfl hne hm h0

/-- Lexemes of a tree that begin with a bracket are enclosed in it; if with a string, they are that string. -/
theorem RTree.start (x : RTree) {l ls} (e : x.lexemes = l :: ls) :
    (l.rbracket = 1 → RSolid x.lexemes) ∧ ((∃ b, l = .str b) → ls = []) := by
  rcases x.form with ⟨k, h, hk⟩ | ⟨w, r, h⟩ | h
  · rw [h] at e ⊢
    injection e with e1 e2
    subst e1 e2
    exact ⟨fun h => by omega, fun _ => rfl⟩
  · rw [h] at e
    injection e with e1 e2
    subst e1
    exact ⟨fun h => by simp [Lexeme.rbracket] at h, fun ⟨_, h⟩ => by cases h⟩
  · refine ⟨fun _ => h, fun ⟨b, hb⟩ => ?_⟩
    obtain ⟨b', r, c, h, hb', _⟩ := h
    rw [h] at e
    injection e with e1 e2
    subst e1
    subst hb
    simp [Lexeme.rbracket] at hb'

theorem RTree.lexemes_ne (x : RTree) : ∃ l ls, x.lexemes = l :: ls := by
  rcases x.form with ⟨k, h, _⟩ | ⟨w, r, h⟩ | ⟨b, r, c, h, _⟩ <;> exact ⟨_, _, h⟩

theorem RScan.split {a b txt rest} (h : RScan fl (a ++ b) txt rest) : ∃ r, RScan fl a txt r ∧ RScan fl b r rest := by
  induction a generalizing txt with
  | nil => exact ⟨_, .nil, h⟩
  | cons l a ih =>
    generalize e : l :: a ++ b = m at h
    cases h with
    | nil => cases e
    | cons h1 h2 h3 h4 =>
      injection e with e1 e2
      subst e1 e2
      obtain ⟨r, g1, g2⟩ := ih h4
      exact ⟨r, .cons h1 h2 h3 g1, g2⟩

theorem RBegins.scan {ls txt} (h : RBegins fl ls txt) : ∃ rest, RScan fl ls txt rest := by
  rcases h with ⟨r, h, _⟩ | ⟨l, r, h, _⟩
  · exact ⟨r, h⟩
  · obtain ⟨r, h, _⟩ := h.split; exact ⟨r, h⟩

/-- A truncated value that begins with a bracket or a quote has no reading, of any type of any program. -/
theorem ron_truncated_reading {x : RTree} {txt p q : List Char} (hx : RScan fl x.lexemes txt [])
    (hc : ∃ c ∈ ['(', '[', '{', '"'], txt.head? = some c)
    (e : txt = p ++ q) (hq : q ≠ []) {t : Ty} {v : Val} : ¬ RonReading env fl t p v := by
  intro h
  obtain ⟨c, hc, hh⟩ := hc
  cases p with
  | nil =>
    rcases h with ⟨y, h, _⟩ | ⟨a, b, rest, h, _⟩
    · obtain ⟨r, h⟩ := h.scan
      obtain ⟨l, ls, e⟩ := y.lexemes_ne
      rw [e] at h
      exact h.cons_ne rfl
    · exact h.cons_ne rfl
  | cons d p =>
    subst e
    have : d = c := by simpa using hh
    subst this
    obtain ⟨l, ls, el⟩ := x.lexemes_ne
    have hv : (∃ l, x.lexemes = [l]) ∨ RSolid x.lexemes := by
      have hx' := hx
      rw [el] at hx'
      rcases RScan.first (txt := p ++ q) hx' hc with ⟨h, _⟩ | ⟨h, _⟩
      · exact .inr ((x.start el).1 h)
      · exact .inl ⟨l, by rw [el, (x.start el).2 h]⟩
    rcases h with ⟨y, h, _⟩ | ⟨a, b, rest, h, _⟩
    · obtain ⟨r, h⟩ := h.scan
      obtain ⟨k, ks, ek⟩ := y.lexemes_ne
      have h' := h
      rw [ek] at h'
      refine ron_truncated_core hx hv rfl hq h (by rw [ek]; simp) y.nested.1 ?_
      rcases h'.first hc with ⟨g, _⟩ | ⟨g, _⟩
      · obtain ⟨b, r, c, g, _⟩ := (y.start ek).1 g
        rw [g]
        intro l hl
        rw [← List.cons_append, List.getLast?_append] at hl
        simp at hl
        subst hl
        intros; trivial
      · rw [ek, (y.start ek).2 g]
        obtain ⟨b, rfl⟩ := g
        intro l hl
        simp at hl
        subst hl
        intros; trivial
    · rcases h.first hc with ⟨g, _⟩ | ⟨⟨_, g⟩, _⟩
      · simp [Lexeme.rbracket] at g
      · cases g

theorem Layout.rlayout {w} (h : Layout w) : RLayout w := by
  induction h with
  | nil => exact .nil
  | space h _ ih => exact .space h ih
  | line h1 h2 _ ih => exact .line h1 h2 ih
  | block h1 h2 _ ih => exact .block h1 h2 ih

theorem RDoc.scan {ls txt tail} (h : RDoc fl ls txt tail) : RScan fl ls txt tail := by
  induction h with
  | nil => exact .nil
  | @cons l ls w s r tail h1 h2 h3 _ ih =>
    refine .cons h1.rlayout (.inl h2) (fun c hc => ?_) ih
    cases l with
    | num n =>
      have : c ∉ numCont := h3 c hc
      simp only [numCont, RLongest] at this ⊢
      refine ⟨fun h => ?_, ?_, ?_⟩
      · have hd := isDig_cases (d := c) (by simp [isDig, h.1, h.2])
        rcases hd with e | e | e | e | e | e | e | e | e | e <;> subst e <;> exact absurd this (by decide)
      · rintro (rfl | rfl) <;> simp at this
      · rintro rfl; simp at this
    | word w => exact h3 c hc
    | _ => trivial

end NS
