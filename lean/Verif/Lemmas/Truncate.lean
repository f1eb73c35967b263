import Verif.Props.JsonWhole
import Verif.Lemmas.JsonRoundTrip
import Verif.Lemmas.JsonSaysOf
/-! Truncated JSON texts. -/
namespace NS
variable {fl : FloatOps} {env : Env}

/-! ## Brackets -/

theorem bracket_ge (l : Lexeme) : -1 ≤ l.bracket := by
  cases l with
  | punct t => cases t <;> simp [Lexeme.bracket]
  | _ => simp [Lexeme.bracket]

theorem depth_snoc (ls : List Lexeme) (l : Lexeme) : depth (ls ++ [l]) = depth ls + l.bracket := by
  rw [depth_app, depth_cons, depth_nil]; omega

/-- A bracketed sequence that is not closed before its end has a positive depth inside. -/
theorem inner_pos {b : Lexeme} {r : List Lexeme} (hb : b.bracket = 1)
    (h : ∀ p q, b :: r = p ++ q → p ≠ [] → q ≠ [] → depth p ≠ 0) :
    ∀ (n : Nat) (p q : List Lexeme), p.length = n → b :: r = p ++ q → p ≠ [] → q ≠ [] → 0 < depth p := by
  intro n
  induction n with
  | zero => intro p q hn e hp; exact absurd (List.length_eq_zero_iff.1 hn) hp
  | succ n ih =>
    intro p q hn e hp hq
    have hd : p.dropLast ++ [p.getLast hp] = p := List.dropLast_append_getLast hp
    have hl : p.dropLast.length = n := by simp [hn]
    by_cases h0 : p.dropLast = []
    · rw [h0] at hd
      have hp' : p = [p.getLast hp] := by simpa using hd.symm
      rw [hp'] at e
      have : b = p.getLast hp := by simp at e; exact e.1
      rw [hp', ← this, depth_cons, depth_nil]
      omega
    · have := ih p.dropLast (p.getLast hp :: q) hl (by rw [e, ← List.singleton_append, ← List.append_assoc, hd]) h0 (by simp)
      have hne := h p q e hp hq
      have hb' := bracket_ge (p.getLast hp)
      rw [← hd, depth_snoc] at hne ⊢
      omega

theorem PassedOver.nested {ls : List Lexeme} (h : PassedOver ls) : Nested ls := by
  rcases h with ⟨l, rfl, _, h⟩ | ⟨b, r, rfl, hb, h0, h⟩
  · exact .single h
  · refine ⟨h0, fun p q e => ?_⟩
    by_cases hp : p = []
    · subst hp; simp [depth_nil]
    · by_cases hq : q = []
      · subst hq; rw [List.append_nil] at e; rw [← e, h0]
      · exact Int.le_of_lt (inner_pos hb h _ p q rfl e hp hq)

theorem PassedOver.wrapped {xs : List Lexeme} {a b : Lexeme} (h : Nested xs) (ha : a.bracket = 1) (hb : b.bracket = -1) :
    PassedOver (a :: (xs ++ [b])) := by
  have := h.wrap ha hb
  exact .inr ⟨_, _, rfl, ha, this.1.1, this.2⟩

theorem PassedOver.blocks {tr : Bool} {xs : List (List Lexeme)} (h : ∀ x ∈ xs, PassedOver x) : PassedOver (inBlocks tr xs) :=
  .wrapped (.comma fun x hx => (h x hx).nested) rfl rfl

theorem PassedOver.curlies {tr : Bool} {xs : List (List Lexeme)} (h : ∀ x ∈ xs, Nested x) : PassedOver (inCurlies tr xs) :=
  .wrapped (.comma h) rfl rfl

theorem PassedOver.leaf {l : Lexeme} (h1 : l.startsValue = true) (h2 : l.bracket = 0) : PassedOver [l] := .inl ⟨l, rfl, h1, h2⟩

theorem Nested.member {k v : List Lexeme} (hk : Nested k) (hv : Nested v) : Nested (k ++ .punct .colon :: v) :=
  hk.append ((Nested.single (l := .punct .colon) rfl).append hv)

theorem durLexemes_nested {ms : List (List Lexeme)} {s n : Nat} (h : DurLexemes ms s n) : ∀ x ∈ ms, Nested x := by
  have key : ∀ (a : List Char) (k : Nat), Nested [.str a, .punct .colon, .num (.nat k)] := fun a k =>
    Nested.member (k := [.str a]) (.single rfl) (.single rfl)
  intro x hx
  rcases h with rfl | rfl | ⟨rfl, _⟩ <;> simp at hx
  · rcases hx with rfl | rfl <;> exact key _ _
  · rcases hx with rfl | rfl <;> exact key _ _
  · subst hx; exact key _ _

theorem known_or (fs : List Field) (k : List Char) :
    (∃ f ∈ fs, f.skip = false ∧ f.jsonName = k) ∨ ∀ f ∈ fs, f.skip = false → f.jsonName ≠ k := by
  by_cases h : ∃ f ∈ fs, f.skip = false ∧ f.jsonName = k
  · exact .inl h
  · exact .inr fun f hf hs e => h ⟨f, hf, hs, e⟩

/-- Whatever denotes a value is a single lexeme or a sequence of lexemes in matching brackets. -/
theorem JsonSays.passedOver {t : Ty} {ls : List Lexeme} {v : Val} (h : JsonSays env fl t ls v) : PassedOver ls := by
  induction h with
  | unit | true | false | int | intWrap | f32 | f64 | str | epoch | none | variant => exact .leaf rfl rfl
  | dur h | time h => exact .curlies (durLexemes_nested h)
  | some _ _ ih | box _ ih | transparent _ _ ih | proxied _ _ ih => exact ih
  | vec ps _ ih | linked ps _ ih | hset ps _ ih | bset ps _ _ ih | array ps _ _ ih | pair ps _ _ ih | triple ps _ _ ih
  | quad ps _ _ ih | tupleStruct ps _ _ _ ih =>
    refine .blocks fun x hx => ?_
    obtain ⟨p, hp, rfl⟩ := List.mem_map.1 hx
    exact ih p hp
  | hmap ps _ _ _ _ ih1 ih2 | bmap ps _ _ _ _ ih1 ih2 =>
    refine .curlies fun x hx => ?_
    obtain ⟨p, hp, rfl⟩ := List.mem_map.1 hx
    exact (ih1 p hp).nested.member (ih2 p hp).nested
  | @struct i fs cd nul vs tr ps _ _ _ h2 ih =>
    refine .curlies fun x hx => ?_
    obtain ⟨p, hp, rfl⟩ := List.mem_map.1 hx
    refine Nested.member (k := [.str p.1]) (.single rfl) ?_
    rcases known_or fs p.1 with ⟨f, hf, hs, e⟩ | hn
    · exact (ih p hp f hf hs e).nested
    · exact (h2 p hp hn).nested
  | noFields => exact .curlies (by simp)
  | newtype _ _ ih => exact .blocks fun x hx => by simp at hx; subst hx; exact ih
  | tupleVariant ps _ _ _ _ ih =>
    refine .curlies fun x hx => ?_
    simp only [List.mem_singleton] at hx
    subst hx
    refine Nested.member (k := [.str _]) (.single rfl) (PassedOver.blocks fun x hx => ?_).nested
    obtain ⟨p, hp, rfl⟩ := List.mem_map.1 hx
    exact ih p hp
  | @structVariant i vars j var fs vs tr ps _ _ _ _ _ h2 ih =>
    refine .curlies fun x hx => ?_
    simp only [List.mem_singleton] at hx
    subst hx
    refine Nested.member (k := [.str _]) (.single rfl) (PassedOver.curlies fun x hx => ?_).nested
    obtain ⟨p, hp, rfl⟩ := List.mem_map.1 hx
    refine Nested.member (k := [.str p.1]) (.single rfl) ?_
    rcases known_or fs p.1 with ⟨f, hf, hs, e⟩ | hn
    · exact (ih p hp f hf hs e).nested
    · exact (h2 p hp hn).nested

/-! ## Scanning a longer text -/

theorem JSpell.ne_nil {l s} (h : JSpell fl l s) : s ≠ [] := by
  cases h with
  | num h => obtain ⟨y, r, e, _⟩ := h.head; rw [e]; simp
  | _ => simp

theorem JScan.cons_ne {l ls txt rest} (h : JScan fl (l :: ls) txt rest) : txt ≠ [] := by
  generalize e : l :: ls = m at h
  cases h with
  | nil => cases e
  | cons _ h _ _ => have := h.ne_nil; simp [this]

theorem JScan.nil_inv {txt rest} (h : JScan fl [] txt rest) : txt = rest := by
  generalize e : ([] : List Lexeme) = m at h
  cases h with
  | nil => rfl
  | cons => cases e

theorem JScan.of_nil {ls rest} (h : JScan fl ls [] rest) : ls = [] ∧ rest = [] := by
  cases ls with
  | nil => exact ⟨rfl, h.nil_inv.symm⟩
  | cons l ls => exact absurd rfl h.cons_ne

theorem head_append_of_ne {a b : List Char} (h : a ≠ []) : (a ++ b).head? = a.head? := by
  cases a with
  | nil => exact absurd rfl h
  | cons => rfl

/-- A scan whose last lexeme cannot be continued remains one when the text goes on. -/
theorem JScan.extend {ls p rest} (h : JScan fl ls p rest) (q : List Char)
    (hl : ∀ l, ls.getLast? = some l → ∀ s c, JLongest l s c) : JScan fl ls (p ++ q) (rest ++ q) := by
  induction h with
  | nil => exact .nil
  | @cons l ls w s r rest h1 h2 h3 h4 ih =>
    have e : w ++ s ++ r ++ q = w ++ s ++ (r ++ q) := by simp
    rw [e]
    cases ls with
    | nil => exact .cons h1 h2 (fun c _ => hl l rfl s c) (by have := h4.nil_inv; subst this; exact .nil)
    | cons l' ls =>
      refine .cons h1 h2 ?_ (ih fun l'' h => hl l'' ?_)
      · rw [head_append_of_ne h4.cons_ne]; exact h3
      · rw [← h]; simp [List.getLast?_cons_cons]

/-- The first lexeme of a text that does not begin with layout begins with the first character. -/
theorem JScan.first {l ls c txt rest} (h : JScan fl (l :: ls) (c :: txt) rest) (hc : c ∉ [' ', '\n', '\r', '\t', '/']) :
    ∃ s r, c :: txt = s ++ r ∧ JSpell fl l s ∧ s.head? = some c ∧ JScan fl ls r rest := by
  generalize e1 : l :: ls = m at h
  generalize e2 : c :: txt = x at h
  cases h with
  | nil => cases e1
  | @cons l' ls' w s r rest h1 h2 h3 h4 =>
    injection e1 with a b
    subst a b
    have : w = [] := by
      cases h1 with
      | nil => rfl
      | space h _ => injection e2 with e2 _; subst e2; rcases h with rfl | rfl | rfl | rfl <;> simp at hc
      | line _ _ _ | block _ _ _ | short _ => injection e2 with e2 _; subst e2; simp at hc
    subst this
    refine ⟨s, r, rfl, h2, ?_, h4⟩
    have := h2.ne_nil
    cases s with
    | nil => exact absurd rfl this
    | cons y s => injection e2 with e2 _; subst e2; rfl

/-- A sequence with as many closing as opening brackets is not found at the start of a truncated value. -/
theorem truncated_core {ls ls' : List Lexeme} {txt p q rest : List Char} (hx : JScan fl ls txt []) (hv : PassedOver ls)
    (e : txt = p ++ q) (hq : q ≠ []) (h' : JScan fl ls' p rest) (hne : ls' ≠ []) (h0 : depth ls' = 0)
    (hl : ∀ l, ls'.getLast? = some l → ∀ s c, JLongest l s c) : False := by
  subst e
  rcases hx.det (h'.extend q hl) with ⟨m, _, h⟩ | ⟨m, rfl, h⟩
  · have := h.of_nil.2; simp [hq] at this
  · have hm : m ≠ [] := by
      rintro rfl
      have := h.nil_inv
      simp [hq] at this
    rcases hv with ⟨l, el, _, _⟩ | ⟨b, r, eb, _, _, hv⟩
    · have := congrArg List.length el
      have a1 := List.length_pos_iff.2 hne
      have a2 := List.length_pos_iff.2 hm
      simp at this
      omega
    · exact hv ls' m rfl hne hm h0

/-- The last of a bracketed sequence is a closing bracket. -/
theorem PassedOver.last {b : Lexeme} {r : List Lexeme} (hb : b.bracket = 1) (h0 : depth (b :: r) = 0)
    (h : ∀ p q, b :: r = p ++ q → p ≠ [] → q ≠ [] → depth p ≠ 0) :
    ∀ l, (b :: r).getLast? = some l → ∀ s c, JLongest l s c := by
  intro l hl
  have hne : (b :: r) ≠ [] := by simp
  rw [List.getLast?_eq_some_getLast hne] at hl
  injection hl with hl
  have hd : (b :: r).dropLast ++ [(b :: r).getLast hne] = b :: r := List.dropLast_append_getLast hne
  rw [hl] at hd
  by_cases h1 : (b :: r).dropLast = []
  · rw [h1] at hd
    rw [← hd, List.nil_append, depth_cons, depth_nil] at h0
    have : b = l := by simp at hd; exact hd.1.symm
    subst this
    omega
  · have := inner_pos hb h _ _ _ rfl hd.symm h1 (by simp)
    rw [← hd, depth_snoc] at h0
    intro s c
    cases l with
    | num t => simp [Lexeme.bracket] at h0; omega
    | word t => simp [Lexeme.bracket] at h0; omega
    | _ => exact trivial

/-- A number literal begins with a digit or a minus sign, and only numbers do. -/
theorem JSpell.num_first {n : Num} {l : Lexeme} {s s' : List Char} {c : Char} (h : JSpell fl (.num n) s) (h' : JSpell fl l s')
    (hs : s.head? = some c) (hs' : s'.head? = some c) : ∃ n', l = .num n' := by
  cases h with
  | num h =>
    obtain ⟨y, r, e, hy⟩ := h.head
    subst e
    simp at hs
    subst hs
    have nd : y ∉ [':', ',', '[', ']', '{', '}', 't', 'f', 'n', '"'] := by
      rcases hy with rfl | rfl | hy
      · decide
      · decide
      · rcases isDig_cases hy with e | e | e | e | e | e | e | e | e | e <;> subst e <;> decide
    cases h' with
    | num => exact ⟨_, rfl⟩
    | _ => simp at hs'; subst hs'; simp at nd

/-- A value is not found at the start of a truncated value that is not a number. -/
theorem json_truncated {ls ls' : List Lexeme} {txt p q rest : List Char} (hx : JScan fl ls txt []) (hv : PassedOver ls)
    (hn : ∀ n, ls ≠ [.num n]) (hc : ∀ c, txt.head? = some c → c ∉ [' ', '\n', '\r', '\t', '/'])
    (e : txt = p ++ q) (hq : q ≠ []) (h' : JScan fl ls' p rest) (hv' : PassedOver ls') : False := by
  have hv'' := hv'
  rcases hv' with ⟨l, rfl, _, _⟩ | ⟨b, r, rfl, hb, h0, h⟩
  · cases p with
    | nil => exact h'.cons_ne rfl
    | cons c p =>
      subst e
      have hc := hc c rfl
      obtain ⟨s', r', e', hs', hh', _⟩ := h'.first hc
      cases ls with
      | nil => rcases hv with ⟨_, h, _⟩ | ⟨_, _, h, _⟩ <;> cases h
      | cons k ls =>
        obtain ⟨s, r, es, hs, hh, hrest⟩ := JScan.first (txt := p ++ q) hx hc
        have single : k.bracket ≠ 1 → ls = [] := by
          intro hk
          rcases hv with ⟨_, h, _⟩ | ⟨b, _, h, hb, _⟩
          · injection h
          · injection h with h1 _; subst h1; exact absurd hb hk
        cases l with
        | num n =>
          obtain ⟨n', rfl⟩ := hs'.num_first hs hh' hh
          have := single (by simp [Lexeme.bracket])
          subst this
          exact hn _ rfl
        | word w =>
          have key : k = .word w ∧ s = s' := by
            cases hs' <;> cases hs with
            | num h =>
              obtain ⟨y, r, e, hy⟩ := h.head
              subst e
              simp at hh hh'
              subst hh' 
              subst hh
              rcases hy with h | h | h <;> exact absurd h (by decide)
            | _ => simp_all
          obtain ⟨rfl, rfl⟩ := key
          have := single (by simp [Lexeme.bracket])
          subst this
          have := hrest.nil_inv
          subst this
          rw [List.append_nil] at es
          have a1 := congrArg List.length es
          have a2 := congrArg List.length e'
          have a3 := List.length_pos_iff.2 hq
          simp only [List.length_cons, List.length_append] at a1 a2
          omega
        | _ => exact truncated_core (p := c :: p) hx hv rfl hq h' (by simp) hv''.nested.1 (by intro l h; simp at h; subst h; intros; trivial)
  · exact truncated_core hx hv e hq h' (by simp) h0 (PassedOver.last hb h0 h)

/-- Nor are two strings. -/
theorem json_truncated_strs {ls : List Lexeme} {txt p q rest a b : List Char} (hx : JScan fl ls txt []) (hv : PassedOver ls)
    (e : txt = p ++ q) (hq : q ≠ []) (h' : JScan fl [.str a, .str b] p rest) : False :=
  truncated_core hx hv e hq h' (by simp) (by rfl) (by intro l h; simp at h; subst h; intros; trivial)

theorem JScan.split {a b txt rest} (h : JScan fl (a ++ b) txt rest) : ∃ r, JScan fl a txt r ∧ JScan fl b r rest := by
  induction a generalizing txt with
  | nil => exact ⟨_, .nil, h⟩
  | cons l a ih =>
    generalize e : l :: a ++ b = m at h
    cases h with
    | nil => cases e
    | cons h1 h2 h3 h4 =>
      injection e with e1 e2
      subst e1 e2
      obtain ⟨r, g1, g2⟩ := ih h4
      exact ⟨r, .cons h1 h2 h3 g1, g2⟩

theorem JBegins.scan {ls txt} (h : JBegins fl ls txt) : ∃ rest, JScan fl ls txt rest := by
  rcases h with ⟨r, h, _⟩ | ⟨l, r, h, _⟩
  · exact ⟨r, h⟩
  · obtain ⟨r, h, _⟩ := h.split; exact ⟨r, h⟩

/-- A truncated value that is not a number has no reading, of any type of any program. -/
theorem json_truncated_reading {ls : List Lexeme} {txt p q : List Char} (hx : JScan fl ls txt []) (hv : PassedOver ls)
    (hn : ∀ n, ls ≠ [.num n]) (hc : ∀ c, txt.head? = some c → c ∉ [' ', '\n', '\r', '\t', '/'])
    (e : txt = p ++ q) (hq : q ≠ []) {t : Ty} {v : Val} : ¬ JsonReading env fl t p v := by
  rintro (⟨ls', h, hs⟩ | ⟨a, b, rest, h, _⟩)
  · obtain ⟨r, h⟩ := h.scan
    exact json_truncated hx hv hn hc e hq h hs.passedOver
  · exact json_truncated_strs hx hv e hq h

/-! ## Written texts -/

theorem Layout.jlayout {w} (h : Layout w) : JLayout w := by
  induction h with
  | nil => exact .nil
  | space h _ ih => exact .space h ih
  | line h1 h2 _ ih => exact .line h1 h2 ih
  | block h1 h2 _ ih => exact .block h1 h2 ih

theorem JDoc.scan {ls txt tail} (h : JDoc fl ls txt tail) : JScan fl ls txt tail := by
  induction h with
  | nil => exact .nil
  | @cons l ls w s r tail h1 h2 h3 _ ih =>
    refine .cons h1.jlayout h2 (fun c hc => ?_) ih
    cases l with
    | num n =>
      have : c ∉ numCont := h3 c hc
      simp only [numCont, JLongest] at this ⊢
      refine ⟨fun h => ?_, ?_, ?_⟩
      · have hd := isDig_cases (d := c) (by simp [isDig, h.1, h.2])
        rcases hd with e | e | e | e | e | e | e | e | e | e <;> subst e <;> exact absurd this (by decide)
      · rintro (rfl | rfl) <;> simp at this
      · rintro rfl; simp at this
    | word w => exact h3 c hc
    | _ => trivial

end NS
