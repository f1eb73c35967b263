import Verif.Lemmas.RonRead2
import Verif.Lemmas.JsonText
import Verif.Spec.RonSafe
/-! Texts that the RON writer produces, as lexemes. -/
namespace NS
variable {fl : FloatOps} {env : Env}

/-- One written character. -/
theorem ronEsc_lit (c : Char) : StrLit (ronEsc c) [c] := by
  unfold ronEsc
  split
  · rename_i h; subst h; exact .esc (c := 'n') (by decide) (by decide) .nil
  split
  · rename_i h; subst h; exact .esc (c := 'r') (by decide) (by decide) .nil
  split
  · rename_i h; subst h; exact .esc (c := 't') (by decide) (by decide) .nil
  split
  · rename_i h; subst h; exact .esc (c := '0') (by decide) (by decide) .nil
  split
  · rename_i h; subst h; exact .esc (c := '\\') (by decide) (by decide) .nil
  split
  · rename_i h; subst h; exact .esc (c := '"') (by decide) (by decide) .nil
  · rename_i h0 h1 h2
    exact .plain h2 h1 h0 .nil

theorem ronStr_lit (s : List Char) : StrLit (s.flatMap ronEsc) s := by
  induction s with
  | nil => exact .nil
  | cons c s ih =>
    have := (ronEsc_lit c).append ih
    simpa using this

/-- The next character, if any, is punctuation. -/
def RSepText (r : List Char) : Prop := ∀ c, r.head? = some c → c ∈ [',', ':', ']', '}', ')', '(']

theorem RSepText.nil : RSepText [] := by intro c h; simp at h
theorem RSepText.cons {c r} (h : c ∈ [',', ':', ']', '}', ')', '(']) : RSepText (c :: r) := by
  intro d hd; simp at hd; subst hd; exact h

theorem RSepText.sep {r} (h : RSepText r) (l : Lexeme) : RSep l r := by
  have key : ∀ c, r.head? = some c → c = ',' ∨ c = ':' ∨ c = ']' ∨ c = '}' ∨ c = ')' ∨ c = '(' := fun c hc => by simpa using h c hc
  cases l with
  | num t =>
    intro c hc
    rcases key c hc with rfl | rfl | rfl | rfl | rfl | rfl <;> decide
  | word w =>
    intro c hc
    rcases key c hc with rfl | rfl | rfl | rfl | rfl | rfl <;> (unfold IdCont IdStart; decide)
  | _ => trivial

/-- `txt` spells `ls` when followed by punctuation. -/
def RLSpells (fl : FloatOps) (ls : List Lexeme) (txt : List Char) : Prop :=
  ∀ ls' r tail, RSepText r → RDoc fl ls' r tail → RDoc fl (ls ++ ls') (txt ++ r) tail

theorem RLSpells.nil : RLSpells fl [] [] := fun _ _ _ _ h => h

theorem RLSpells.single {l s} (h : RSpell fl l s) : RLSpells fl [l] s := by
  intro ls r tail hr hd
  exact RDoc.cons (w := []) .nil h (hr.sep l) hd

theorem RLSpells.append {a b x y} (ha : RLSpells fl a x) (hb : RLSpells fl b y)
    (hs : ∀ r, RSepText r → RSepText (y ++ r)) : RLSpells fl (a ++ b) (x ++ y) := by
  intro ls r tail hr hd
  rw [List.append_assoc, List.append_assoc]
  exact ha _ _ _ (hs r hr) (hb _ _ _ hr hd)

/-- Punctuation before anything. -/
theorem RLSpells.punct {t c ls y} (h : RSpell fl (.punct t) [c]) (hl : RLSpells fl ls y) :
    RLSpells fl (.punct t :: ls) (c :: y) := by
  intro ls' r tail hr hd
  exact RDoc.cons (w := []) (s := [c]) .nil h trivial (hl _ _ _ hr hd)

theorem RDoc.space {l ls txt tail} (h : RDoc fl (l :: ls) txt tail) : RDoc fl (l :: ls) (' ' :: txt) tail := by
  cases h with
  | cons hw hs hj hd => exact RDoc.cons (w := ' ' :: _) (.space (.inl rfl) hw) hs hj hd

theorem RLSpells.space {l ls y} (h : RLSpells fl (l :: ls) y) : RLSpells fl (l :: ls) (' ' :: y) := by
  intro ls' r tail hr hd
  exact (h ls' r tail hr hd).space

/-- Items with separators. -/
theorem RLSpells.join {sep : List Char} (hsep : sep = [','] ∨ sep = [',', ' ']) :
    ∀ {lss : List (List Lexeme)} {txts : List (List Char)}, lss.length = txts.length →
      (∀ p ∈ lss.zip txts, RLSpells fl p.1 p.2 ∧ p.1 ≠ []) →
      RLSpells fl (commaLexemes false lss) (joinSep sep txts)
  | [], [], _, _ => RLSpells.nil
  | [x], [t], _, h => by
    have := (h (x, t) (by simp)).1
    simpa [commaLexemes, joinSep] using this
  | x :: y :: r, t :: u :: v, hl, h => by
    have h1 := h (x, t) (by simp)
    have ih := RLSpells.join hsep (lss := y :: r) (txts := u :: v) (by simpa using hl)
      (fun p hp => h p (List.mem_cons_of_mem _ hp))
    simp only [commaLexemes, joinSep, List.append_assoc]
    have hne : ∃ l ls, commaLexemes false (y :: r) = l :: ls := by
      have hy := (h (y, u) (by simp)).2
      obtain ⟨s, e, _⟩ := commaLexemes_cons false y r []
      simp only [List.append_nil] at e
      cases y with
      | nil => exact absurd rfl hy
      | cons a b => exact ⟨a, _, by rw [e]; rfl⟩
    refine RLSpells.append h1.1 ?_ ?_
    · rcases hsep with rfl | rfl
      · exact RLSpells.punct .comma ih
      · obtain ⟨l, ls, e⟩ := hne
        rw [e] at ih ⊢
        exact RLSpells.punct .comma ih.space
    · intro r _
      rcases hsep with rfl | rfl <;> exact RSepText.cons (by simp)
  | [], _ :: _, h, _ => by simp at h
  | _ :: _, [], h, _ => by simp at h
  | [_], _ :: _ :: _, h, _ => by simp at h
  | _ :: _ :: _, [_], h, _ => by simp at h

/-- Items each followed by a comma. -/
theorem RLSpells.each : ∀ {lss : List (List Lexeme)} {txts : List (List Char)}, lss.length = txts.length →
      (∀ p ∈ lss.zip txts, RLSpells fl p.1 p.2 ∧ p.1 ≠ []) →
      RLSpells fl (commaLexemes true lss) (commaEach txts)
  | [], [], _, _ => RLSpells.nil
  | [x], [t], _, h => by
    have := (h (x, t) (by simp)).1
    have := RLSpells.append this (.single (fl := fl) .comma) fun r _ => RSepText.cons (by simp)
    simpa [commaLexemes, commaEach] using this
  | x :: y :: r, t :: u :: v, hl, h => by
    have h1 := h (x, t) (by simp)
    have ih := RLSpells.each (lss := y :: r) (txts := u :: v) (by simpa using hl)
      (fun p hp => h p (List.mem_cons_of_mem _ hp))
    have e : commaEach (t :: u :: v) = t ++ ',' :: commaEach (u :: v) := by simp [commaEach]
    rw [e]
    simp only [commaLexemes]
    exact RLSpells.append h1.1 (RLSpells.punct .comma ih) fun r _ => RSepText.cons (by simp)
  | [], _ :: _, h, _ => by simp at h
  | _ :: _, [], h, _ => by simp at h
  | [_], _ :: _ :: _, h, _ => by simp at h
  | _ :: _ :: _, [_], h, _ => by simp at h

/-- `txt` spells the tree `x`. -/
def RSpells (fl : FloatOps) (x : RTree) (txt : List Char) : Prop := RLSpells fl x.lexemes txt

theorem RSpells.text {x : RTree} {txt} (h : RSpells fl x txt) : RText fl x txt := by
  refine ⟨[], .inl .nil, ?_⟩
  have := h [] [] [] .nil .nil
  simpa using this

/-- How lists of items are written. -/
def ListText (tr : Bool) (txts : List (List Char)) (body : List Char) : Prop :=
  (tr = false ∧ (body = joinSep [','] txts ∨ body = joinSep [',', ' '] txts)) ∨ (tr = true ∧ body = commaEach txts)

theorem RLSpells.items {tr : Bool} {lss : List (List Lexeme)} {txts : List (List Char)} {body : List Char} (hb : ListText tr txts body)
    (hl : lss.length = txts.length) (h : ∀ p ∈ lss.zip txts, RLSpells fl p.1 p.2 ∧ p.1 ≠ []) :
    RLSpells fl (commaLexemes tr lss) body := by
  rcases hb with ⟨rfl, rfl | rfl⟩ | ⟨rfl, rfl⟩
  · exact RLSpells.join (.inl rfl) hl h
  · exact RLSpells.join (.inr rfl) hl h
  · exact RLSpells.each hl h

theorem lexemes_ne (x : RTree) : x.lexemes ≠ [] := by
  obtain ⟨l, ls, e, _⟩ := Ron.start x
  simp [e]

theorem RLSpells.trees {tr : Bool} {xs : List RTree} {txts : List (List Char)} {body} (hb : ListText tr txts body)
    (hl : xs.length = txts.length) (h : ∀ p ∈ xs.zip txts, RSpells fl p.1 p.2) :
    RLSpells fl (commaLexemes tr (xs.map RTree.lexemes)) body := by
  refine RLSpells.items hb (by simpa using hl) fun p hp => ?_
  rw [List.zip_map_left] at hp
  obtain ⟨q, hq, rfl⟩ := List.mem_map.1 hp
  exact ⟨h q hq, lexemes_ne _⟩

theorem RSpells.list {tr : Bool} {xs : List RTree} {txts : List (List Char)} {body} (hb : ListText tr txts body)
    (hl : xs.length = txts.length) (h : ∀ p ∈ xs.zip txts, RSpells fl p.1 p.2) :
    RSpells fl (.list xs tr) ('[' :: (body ++ [']'])) := by
  unfold RSpells
  rw [RTree.lexemes_list]
  exact RLSpells.punct .blockOpen (RLSpells.append (.trees hb hl h) (.single .blockClose) fun r _ => RSepText.cons (by simp))

theorem RSpells.tuple {tr : Bool} {xs : List RTree} {txts : List (List Char)} {body} (hb : ListText tr txts body)
    (hl : xs.length = txts.length) (h : ∀ p ∈ xs.zip txts, RSpells fl p.1 p.2) :
    RSpells fl (.tuple xs tr) ('(' :: (body ++ [')'])) := by
  unfold RSpells
  rw [RTree.lexemes_tuple]
  exact RLSpells.punct .parenOpen (RLSpells.append (.trees hb hl h) (.single .parenClose) fun r _ => RSepText.cons (by simp))

theorem RSpells.map {tr : Bool} {ms : List (RTree × RTree)} {txts : List (List Char)} {body} (hb : ListText tr txts body)
    (hl : ms.length = txts.length)
    (h : ∀ p ∈ ms.zip txts, RLSpells fl (p.1.1.lexemes ++ .punct .colon :: p.1.2.lexemes) p.2) :
    RSpells fl (.map ms tr) ('{' :: (body ++ ['}'])) := by
  unfold RSpells
  rw [RTree.lexemes_map]
  refine RLSpells.punct .curlyOpen (RLSpells.append (.items hb (by simpa using hl) ?_) (.single .curlyClose) fun r _ => RSepText.cons (by simp))
  intro p hp
  rw [List.zip_map_left] at hp
  obtain ⟨q, hq, rfl⟩ := List.mem_map.1 hp
  exact ⟨h q hq, by simp⟩

theorem RSpells.fields {tr : Bool} {ms : List (List Char × RTree)} {txts : List (List Char)} {body} (hb : ListText tr txts body)
    (hl : ms.length = txts.length)
    (h : ∀ p ∈ ms.zip txts, RLSpells fl (.word p.1.1 :: .punct .colon :: p.1.2.lexemes) p.2) :
    RSpells fl (.fields ms tr) ('(' :: (body ++ [')'])) := by
  unfold RSpells
  rw [RTree.lexemes_fields]
  refine RLSpells.punct .parenOpen (RLSpells.append (.items hb (by simpa using hl) ?_) (.single .parenClose) fun r _ => RSepText.cons (by simp))
  intro p hp
  rw [List.zip_map_left] at hp
  obtain ⟨q, hq, rfl⟩ := List.mem_map.1 hp
  exact ⟨h q hq, by simp⟩

theorem RSpells.word {w} (h : RWord w) : RSpells fl (.word w) w := by
  unfold RSpells; rw [RTree.lexemes]; exact .single (.word h)
theorem RSpells.num {t s} (h : NumLit fl s t) : RSpells fl (.num t) s := by
  unfold RSpells; rw [RTree.lexemes]; exact .single (.num h)
theorem RSpells.str {b s} (h : StrLit b s) : RSpells fl (.str s) ('"' :: (b ++ ['"'])) := by
  unfold RSpells; rw [RTree.lexemes]; exact .single (.str h)

theorem RSpells.ctor {w} (h : RWord w) {x : RTree} {y} (hx : RSpells fl x ('(' :: y)) : RSpells fl (.ctor w x) (w ++ '(' :: y) := by
  unfold RSpells at hx ⊢
  rw [RTree.lexemes_ctor]
  exact RLSpells.append (.single (.word h)) hx fun r _ => RSepText.cons (by simp)

theorem rword_const {w : List Char} (h : ∃ c r, w = c :: r ∧ isIdStart c = true ∧ r.all isIdChar = true) : RWord w := by
  obtain ⟨c, r, rfl, h1, h2⟩ := h
  refine ⟨c, r, rfl, ?_, ?_⟩
  · simpa [isIdStart, IdStart, or_assoc] using h1
  · intro d hd
    have := List.all_eq_true.1 h2 d hd
    simpa [isIdChar, isDig, isIdStart, IdCont, IdStart, or_assoc] using this

theorem durText_spells {s n : Nat} (hs : s ≤ u64Max) (hn : n < 1000000000) :
    ∃ ms, DurMembers ms s n ∧ RSpells fl (.map ms false) (durText s n) := by
  have mem : ∀ (nm : List Char) k, StrLit nm nm → k ≤ u64Max →
      RLSpells fl ((RTree.str nm).lexemes ++ .punct .colon :: (RTree.num (.nat k)).lexemes) (jsonLabel nm ++ ':' :: showNat k) := by
    intro nm k hnm hk
    refine RLSpells.append (RSpells.str hnm) (.punct .colon (RSpells.num (showNat_lit hk))) fun r _ => RSepText.cons (by simp)
  have h1 := mem ['s', 'e', 'c', 's'] s (plainName_lit (by unfold PlainName; decide)) hs
  have h2 := mem ['n', 'a', 'n', 'o', 's'] n (plainName_lit (by unfold PlainName; decide)) (by unfold u64Max; omega)
  by_cases h0 : n > 0
  · refine ⟨_, .inl rfl, ?_⟩
    have := RSpells.map (fl := fl) (tr := false) (ms := [(.str ['s', 'e', 'c', 's'], .num (.nat s)), (.str ['n', 'a', 'n', 'o', 's'], .num (.nat n))])
        (txts := [_, _]) (.inl ⟨rfl, .inl rfl⟩) rfl (fun p hp => by
          simp only [List.zip_cons_cons, List.mem_cons, List.zip_nil_right, List.not_mem_nil, or_false] at hp
          rcases hp with rfl | rfl
          · exact h1
          · exact h2)
    simpa [durText, h0, joinSep, jsonLabel] using this
  · obtain rfl : n = 0 := by omega
    refine ⟨_, .inr (.inr ⟨rfl, rfl⟩), ?_⟩
    have := RSpells.map (fl := fl) (tr := false) (ms := [(.str ['s', 'e', 'c', 's'], .num (.nat s))])
        (txts := [_]) (.inl ⟨rfl, .inl rfl⟩) rfl (fun p hp => by
          simp only [List.zip_cons_cons, List.mem_cons, List.zip_nil_right, List.not_mem_nil, or_false] at hp
          subst hp
          exact h1)
    simpa [durText, joinSep, jsonLabel] using this

end NS
