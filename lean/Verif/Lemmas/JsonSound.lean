import Verif.Lemmas.JsonScan2
import Verif.Lemmas.RonSound3
import Verif.Lemmas.JsonEnum
import Verif.Spec.JsonWhole
/-! What the JSON reader accepts: the lexer, skipped members, named fields. -/
namespace NS
variable {fl : FloatOps} {env : Env}

theorem JLex.form {a l b} (h : JLex fl a l b) : l = .eof ∨ ∃ s, JSpell fl l s := by
  rcases h with ⟨rfl, _⟩ | h
  · exact .inl rfl
  · cases h with
    | cons _ h _ _ => exact .inr ⟨_, h⟩

/-- The lexemes of JSON. -/
theorem JLex.cases {a l b} (h : JLex fl a l b) : l = .eof ∨ (∃ t, l = .punct t ∧ t ∈ [Tok.comma, .colon, .blockOpen,
    .blockClose, .curlyOpen, .curlyClose]) ∨ (l = .word ['t', 'r', 'u', 'e'] ∨ l = .word ['f', 'a', 'l', 's', 'e'] ∨
    l = .word ['n', 'u', 'l', 'l']) ∨ (∃ s, l = .str s) ∨
    ∃ t, l = .num t ∧ (∀ n, t = .nat n → n ≤ u64Max) ∧ (∀ i, t = .neg i → -(2 ^ 63) ≤ i ∧ i ≤ 0) := by
  rcases h.form with rfl | ⟨s, h⟩
  · exact .inl rfl
  · right
    cases h with
    | true => exact .inr (.inl (.inl rfl))
    | false => exact .inr (.inl (.inr (.inl rfl)))
    | null => exact .inr (.inl (.inr (.inr rfl)))
    | str _ => exact .inr (.inr (.inl ⟨_, rfl⟩))
    | num h =>
      refine .inr (.inr (.inr ⟨_, rfl, h.bounds.1, fun i e => ⟨?_, h.bounds.2 i e⟩⟩))
      subst e
      cases h; omega
    | _ => exact .inl ⟨_, rfl, by simp⟩

theorem jtok_inv {a l b t} (hx : JLex fl a l b) (e : jtok l = t) :
    (t ∈ [Tok.comma, .colon, .blockOpen, .blockClose, .curlyOpen, .curlyClose, .parenOpen, .parenClose] → l = .punct t) ∧
    (t = .str → ∃ s, l = .str s) ∧ (t = .null → l = .word ['n', 'u', 'l', 'l']) ∧
    (∀ v, t = .u64 v → l = .num (.nat v) ∧ v ≤ u64Max) ∧ (∀ v, t = .i64 v → l = .num (.neg v) ∧ -(2 ^ 63) ≤ v ∧ v ≤ 0) ∧
    (∀ x, t = .f64 x → l = .num (.float x)) ∧
    (∀ x : Bool, t = .bool x → l = .word (if x then ['t', 'r', 'u', 'e'] else ['f', 'a', 'l', 's', 'e'])) := by
  subst e
  rcases hx.cases with rfl | ⟨t, rfl, ht⟩ | (rfl | rfl | rfl) | ⟨w, rfl⟩ | ⟨t, rfl, h1, h2⟩
  · simp [jtok]
  · simp only [List.mem_cons, List.not_mem_nil, or_false] at ht
    rcases ht with rfl | rfl | rfl | rfl | rfl | rfl <;> simp [jtok]
  · simp [jtok]
  · simp [jtok]
  · simp [jtok]
  · simp [jtok]
  · cases t with
    | nat n => simpa [jtok, Num.tok] using h1
    | neg n => simpa [jtok, Num.tok] using h2
    | float n => simp [jtok, Num.tok]

theorem jLexSound (hfl : FloatLaws fl) : LexSound (jNext fl) jtok (JLex fl) where
  next := jNext_sound' hfl
  punct h e ht := (jtok_inv h e).1 ht
  str h e := (jtok_inv h e).2.1 rfl
  u64 h e := (jtok_inv h e).2.2.2.1 _ rfl
  i64 h e := (jtok_inv h e).2.2.2.2.1 _ rfl
  f64 h e := (jtok_inv h e).2.2.2.2.2.1 _ rfl
  bool h e := (jtok_inv h e).2.2.2.2.2.2 _ rfl

abbrev JLexed (fl : FloatOps) := Lexed jtok (JLex fl)
abbrev JTr (fl : FloatOps) := Tr jtok (JLex fl)

/-- A string followed by another string. -/
def JQ (fl : FloatOps) (s : PSt) (_ : Val) (s' : PSt) : Prop :=
  ∃ a b, AtL jtok (JLex fl) s (.str a) ∧ AtL jtok (JLex fl) s' (.str b) ∧ Tr jtok (JLex fl) s [.str a] s'

abbrev JGot (env : Env) (fl : FloatOps) (rd : PM Val) (t : Ty) : Prop := Got jtok (JLex fl) rd (JsonSays env fl t) (JQ fl)

theorem AtL.string {s} (h : JLexed fl s) (ht : s.tok = .str) : AtL jtok (JLex fl) s (.str s.strbuf) := by
  obtain ⟨l, h⟩ := h
  obtain ⟨a, b, hx⟩ := h.ok
  obtain ⟨w, rfl⟩ := (jtok_inv hx h.tok.symm).2.1 ht
  rw [h.sb w rfl]
  exact h

theorem AtL.null {s} (h : JLexed fl s) : s.tok = .null ↔ AtL jtok (JLex fl) s (.word ['n', 'u', 'l', 'l']) := by
  constructor
  · intro ht
    obtain ⟨l, h⟩ := h
    obtain ⟨a, b, hx⟩ := h.ok
    obtain rfl := (jtok_inv hx h.tok.symm).2.2.1 ht
    exact h
  · intro h; exact h.tok

/-- As `LexSound.step`, for the buffer of strings. -/
theorem LexSound.stepS {nx tk Lx} (hn : LexSound nx tk Lx) {s l s1} (h : AtL tk Lx s l) (e : nx s = .ok () s1) :
    ∃ l', AtL tk Lx s1 l' ∧ Tr tk Lx s [l] s1 ∧ (l'.sb = none → s1.strbuf = s.strbuf) := by
  obtain ⟨l', h1, h2, h3, h4⟩ := hn.next e
  have h' : AtL tk Lx s1 l' := ⟨h2, fun b hb => by rw [h3, hb]; rfl, fun b hb => by rw [h4, hb]; rfl, _, _, h1⟩
  exact ⟨l', h', .cons h h1 h' .nil, fun hb => by rw [h3, hb]; rfl⟩

/-! ## Members passed over -/

/-- The brackets of a token. -/
theorem AtL.bracket {s l} (h : AtL jtok (JLex fl) s l) :
    ((s.tok = .blockOpen ∨ s.tok = .curlyOpen) ↔ l.bracket = 1) ∧ ((s.tok = .blockClose ∨ s.tok = .curlyClose) ↔ l.bracket = -1) ∧
      (l.bracket = 1 ∨ l.bracket = 0 ∨ l.bracket = -1) := by
  obtain ⟨a, b, hx⟩ := h.ok
  rw [h.tok]
  rcases hx.cases with rfl | ⟨t, rfl, ht⟩ | (rfl | rfl | rfl) | ⟨w, rfl⟩ | ⟨t, rfl, h1, h2⟩
  · simp [jtok, Lexeme.bracket]
  · simp only [List.mem_cons, List.not_mem_nil, or_false] at ht
    rcases ht with rfl | rfl | rfl | rfl | rfl | rfl <;> simp [jtok, Lexeme.bracket]
  · simp [jtok, Lexeme.bracket]
  · simp [jtok, Lexeme.bracket]
  · simp [jtok, Lexeme.bracket]
  · simp [jtok, Lexeme.bracket]
  · cases t <;> simp [jtok, Num.tok, Lexeme.bracket]

theorem AtL.count {s l} (h : AtL jtok (JLex fl) s l) (d : Int) :
    (if s.tok = .blockClose ∨ s.tok = .curlyClose then (if s.tok = .blockOpen ∨ s.tok = .curlyOpen then d + 1 else d) - 1
      else (if s.tok = .blockOpen ∨ s.tok = .curlyOpen then d + 1 else d)) = d + l.bracket := by
  obtain ⟨h1, h2, h3⟩ := h.bracket
  rcases h3 with h | h | h
  · rw [if_pos (h1.2 h), if_neg (fun g => by have := h2.1 g; omega), h]
  · rw [if_neg (fun g => by have := h2.1 g; omega), if_neg (fun g => by have := h1.1 g; omega), h]; omega
  · rw [if_pos (h2.2 h), if_neg (fun g => by have := h1.1 g; omega), h]; omega

variable (hfl : FloatLaws fl)
include hfl

theorem wholeLoop_inv (n : Nat) : ∀ {d s s'}, JLexed fl s → wholeLoop (jNext fl) n d s = .ok () s' →
    JLexed fl s' ∧ ∃ l r, JTr fl s (l :: r) s' ∧ d + depth (l :: r) = 0 ∧
      ∀ p q, l :: r = p ++ q → p ≠ [] → q ≠ [] → d + depth p ≠ 0 := by
  have hn := jLexSound hfl
  induction n with
  | zero => intro d s s' _ h; cases h
  | succ n ih =>
    rintro d s s' ⟨l, hl⟩ h
    replace h : (jNext fl >>= fun _ => if (if s.tok = .blockClose ∨ s.tok = .curlyClose then
      (if s.tok = .blockOpen ∨ s.tok = .curlyOpen then d + 1 else d) - 1
      else (if s.tok = .blockOpen ∨ s.tok = .curlyOpen then d + 1 else d)) = (0 : Int) then (pure () : PM Unit) else wholeLoop (jNext fl) n
      (if s.tok = .blockClose ∨ s.tok = .curlyClose then (if s.tok = .blockOpen ∨ s.tok = .curlyOpen then d + 1 else d) - 1
      else (if s.tok = .blockOpen ∨ s.tok = .curlyOpen then d + 1 else d))) s = _ := h
    rw [hl.count] at h
    obtain ⟨_, s1, e1, e⟩ := M.bind_eq_ok.1 h
    obtain ⟨l1, h1, t1, _⟩ := hn.step hl rfl rfl e1
    by_cases hz : d + l.bracket = 0
    · rw [if_pos hz] at e
      cases e
      refine ⟨⟨l1, h1⟩, l, [], t1, by simpa [depth] using hz, fun p q hpq hp hq => ?_⟩
      cases p with
      | nil => exact absurd rfl hp
      | cons x p =>
        simp only [List.cons_append, List.cons.injEq] at hpq
        exact absurd (List.append_eq_nil_iff.1 hpq.2.symm).2 hq
    · rw [if_neg hz] at e
      obtain ⟨l2, m, r, t2, hd, hmin⟩ := ih ⟨l1, h1⟩ e
      refine ⟨l2, l, m :: r, t1.append t2, ?_, fun p q hpq hp hq => ?_⟩
      · rw [← hd]; simp [depth, Int.add_assoc]
      · cases p with
        | nil => exact absurd rfl hp
        | cons x p =>
          simp only [List.cons_append, List.cons.injEq] at hpq
          obtain ⟨rfl, hpq⟩ := hpq
          cases hp' : p with
          | nil => simpa [depth] using hz
          | cons y p' =>
            have := hmin p q hpq (by simp [hp']) hq
            rw [hp'] at this
            simpa [depth, Int.add_assoc] using this

theorem wholeField_inv {n s s'} (hl : JLexed fl s) (h : wholeField (jNext fl) n s = .ok () s') :
    JLexed fl s' ∧ ∃ ls, PassedOver ls ∧ JTr fl s ls s' := by
  have hn := jLexSound hfl
  obtain ⟨l, hl'⟩ := hl
  obtain ⟨a, b, hx⟩ := hl'.ok
  obtain ⟨b1, b2, b3⟩ := hl'.bracket
  replace h : ((match s.tok with
    | .f64 _ | .i64 _ | .str | .u64 _ | .bool _ | .null => jNext fl
    | .blockOpen | .curlyOpen => wholeLoop (jNext fl) n 0
    | _ => M.panic) : PM Unit) s = _ := h
  have one : l.startsValue = true → l.bracket = 0 → jNext fl s = .ok () s' →
      JLexed fl s' ∧ ∃ ls, PassedOver ls ∧ JTr fl s ls s' := by
    intro h1 h2 e
    obtain ⟨l1, g1, t1, _⟩ := hn.step hl' rfl rfl e
    exact ⟨⟨l1, g1⟩, [l], .inl ⟨l, rfl, h1, h2⟩, t1⟩
  have many : l.bracket = 1 → wholeLoop (jNext fl) n 0 s = .ok () s' →
      JLexed fl s' ∧ ∃ ls, PassedOver ls ∧ JTr fl s ls s' := by
    intro h1 e
    obtain ⟨l2, m, r, t2, hd, hmin⟩ := wholeLoop_inv hfl n ⟨l, hl'⟩ e
    refine ⟨l2, m :: r, .inr ⟨m, r, rfl, ?_, by simpa using hd, fun p q hpq hp hq => by simpa using hmin p q hpq hp hq⟩, t2⟩
    have hm : AtL jtok (JLex fl) s m := by cases t2; assumption
    exact hm.bracket.1.1 (b1.2 h1)
  rw [hl'.tok] at h
  rcases hx.cases with rfl | ⟨t, rfl, ht⟩ | (rfl | rfl | rfl) | ⟨w, rfl⟩ | ⟨t, rfl, _, _⟩
  · cases h
  · simp only [List.mem_cons, List.not_mem_nil, or_false] at ht
    rcases ht with rfl | rfl | rfl | rfl | rfl | rfl
    · cases h
    · cases h
    · exact many rfl h
    · cases h
    · exact many rfl h
    · cases h
  · exact one rfl rfl (by simpa [jtok] using h)
  · exact one rfl rfl (by simpa [jtok] using h)
  · exact one rfl rfl (by simpa [jtok] using h)
  · exact one rfl rfl h
  · cases t <;> exact one rfl rfl h

/-! ## Named fields -/
omit hfl

namespace Json

/-- What a member does to the slots of the fields. -/
def mstep {α : Type} (fs : List Field) (acc : List (Option Val)) (p : Member α) : List (Option Val) :=
  match findField fs p.1 with
  | some i => acc.set i (some ((fs.getD i { name := [], ty := .unit }).wrap p.2.2))
  | none => acc

variable {α : Type}

theorem mstep_ne {fs acc} {p : Member α} {i} (h : findField fs p.1 ≠ some i) : (mstep fs acc p)[i]? = acc[i]? := by
  unfold mstep
  split
  · rename_i j hj
    rw [List.getElem?_set_ne]
    rintro rfl; exact h hj
  · rfl

theorem mstep_length (fs acc) (p : Member α) : (mstep fs acc p).length = acc.length := by
  unfold mstep; split <;> simp

theorem msteps_length (fs : List Field) (ps : List (Member α)) (acc) : (ps.foldl (mstep fs) acc).length = acc.length := by
  induction ps generalizing acc with
  | nil => rfl
  | cons p ps ih => rw [List.foldl_cons, ih, mstep_length]

theorem msteps_none {fs : List Field} {i} (ps : List (Member α)) (acc) (h : ∀ q ∈ ps, findField fs q.1 ≠ some i) :
    (ps.foldl (mstep fs) acc)[i]? = acc[i]? := by
  induction ps generalizing acc with
  | nil => rfl
  | cons p ps ih =>
    rw [List.foldl_cons, ih _ fun q hq => h q (List.mem_cons_of_mem _ hq), mstep_ne (h p (List.mem_cons_self ..))]

theorem msteps_last {fs : List Field} {i} {f : Field} {p : Member α} (a b : List (Member α)) (acc) (hi : i < acc.length)
    (hp : findField fs p.1 = some i) (hf : fs[i]? = some f)
    (h : ∀ q ∈ b, findField fs q.1 ≠ some i) : ((a ++ p :: b).foldl (mstep fs) acc)[i]? = some (some (f.wrap p.2.2)) := by
  rw [List.foldl_append, List.foldl_cons, msteps_none b _ h]
  have hl := msteps_length fs a acc
  generalize a.foldl (mstep fs) acc = A at hl ⊢
  unfold mstep
  rw [hp]
  simp [hl, hi, List.getD, hf]

theorem last_named (ps : List (Member α)) (k : List Char) :
    (∀ q ∈ ps, q.1 ≠ k) ∨ ∃ a p b, ps = a ++ p :: b ∧ p.1 = k ∧ ∀ q ∈ b, q.1 ≠ k := by
  induction ps with
  | nil => exact .inl (by simp)
  | cons p ps ih =>
    rcases ih with h | ⟨a, q, b, rfl, h1, h2⟩
    · by_cases hp : p.1 = k
      · exact .inr ⟨[], p, ps, rfl, hp, h⟩
      · exact .inl fun q hq => by
          rcases List.mem_cons.1 hq with rfl | hq
          · exact hp
          · exact h q hq
    · exact .inr ⟨p :: a, q, b, rfl, h1, h2⟩

/-- The fields are what the members supply, if and only if the initialisers compute them. -/
theorem unwrap_iff {cd fs} {ps : List (Member α)} {vs} (hd : DistinctNames fs) (he : fs = [] → ps = []) :
    decUnwrap cd fs (ps.foldl (mstep fs) (fs.map fun _ => none)) = .ok vs ↔ JFieldsGet cd fs ps vs := by
  have other : ∀ {q : Member α} {i f}, fs[i]? = some f → q.1 ≠ f.jsonName → findField fs q.1 ≠ some i := by
    intro q i f hf hq e
    obtain ⟨f', hf', _, hn⟩ := (findField_iff hd).1 e
    rw [hf] at hf'; injection hf' with hf'; subst hf'
    exact hq hn.symm
  have bound : ∀ {i f}, fs[i]? = some f → i < fs.length := by
    intro i f hf
    rcases Nat.lt_or_ge i fs.length with h | h
    · exact h
    · rw [List.getElem?_eq_none h] at hf; cases hf
  rw [unwrap_ok _ _ (by rw [msteps_length]; simp)]
  constructor
  · rintro ⟨hl, hv⟩
    refine ⟨he, hl, fun i f w hf hw => ?_⟩
    have hil := bound hf
    obtain ⟨o, ho⟩ : ∃ o, (ps.foldl (mstep fs) (fs.map fun _ => none))[i]? = some o :=
      ⟨_, List.getElem?_eq_getElem (by rw [msteps_length]; simpa using hil)⟩
    have := hv i f o w hf ho hw
    unfold JFieldGets
    cases hs : f.skip with
    | true =>
      rw [if_pos rfl]
      rcases this with ⟨h, _⟩ | ⟨_, _, h⟩
      · rw [hs] at h; cases h
      · exact h
    | false =>
      rw [if_neg (by simp)]
      rcases last_named ps f.jsonName with hno | ⟨a, p, b, rfl, hp, hb⟩
      · rw [msteps_none ps _ fun q hq => other hf (hno q hq)] at ho
        have ho : none = o := by simpa [hil] using ho
        subst ho
        rcases this with ⟨_, h⟩ | ⟨_, h1, h2⟩
        · cases h
        · exact .inr ⟨hno, h1, h2⟩
      · rw [msteps_last a b _ (by simpa using hil) ((findField_iff hd).2 ⟨f, hf, hs, hp.symm⟩) hf fun q hq => other hf (hb q hq)] at ho
        injection ho with ho
        subst ho
        rcases this with ⟨_, h⟩ | ⟨h, _⟩
        · injection h with h
          exact .inl ⟨a, p, b, rfl, hp, hb, h.symm⟩
        · rcases h with h | h
          · rw [hs] at h; cases h
          · cases h
  · rintro ⟨_, hl, hv⟩
    refine ⟨hl, fun i f o w hf ho hw => ?_⟩
    have hil := bound hf
    have hg := hv i f w hf hw
    unfold JFieldGets at hg
    cases hs : f.skip with
    | true =>
      rw [if_pos hs] at hg
      exact .inr ⟨.inl rfl, .inl hs, hg⟩
    | false =>
      rw [if_neg (by simp [hs])] at hg
      rcases hg with ⟨a, p, b, rfl, hp, hb, rfl⟩ | ⟨hno, hab, rfl⟩
      · refine .inl ⟨rfl, ?_⟩
        rw [msteps_last a b _ (by simpa using hil) ((findField_iff hd).2 ⟨f, hf, hs, hp.symm⟩) hf fun q hq => other hf (hb q hq)] at ho
        injection ho with ho; exact ho.symm
      · refine .inr ⟨.inr ?_, hab, rfl⟩
        rw [msteps_none ps _ fun q hq => other hf (hno q hq)] at ho
        simp [hil] at ho; exact ho.symm

end Json

theorem deField_inv {de : Ty → PM Val} {f : Field} {s v s'} (e : deField de f s = .ok v s') :
    ∃ w, de f.readTy s = .ok w s' ∧ v = f.wrap w := by
  unfold deField at e
  unfold Field.readTy Field.wrap
  generalize f.optProxy = p at e ⊢
  generalize f.ty = T at e ⊢
  cases p with
  | false => exact ⟨v, e, rfl⟩
  | true =>
    cases T with
    | option t =>
      obtain ⟨w, s1, e1, e⟩ := M.bind_eq_ok.1 e
      cases e
      exact ⟨w, e1, rfl⟩
    | _ => exact ⟨v, e, rfl⟩

include hfl

/-- The conditions on a member. -/
def JMemberSays (env : Env) (fl : FloatOps) (fs : List Field) (p : Member (List Lexeme)) : Prop :=
  fs ≠ [] ∧ (∀ f ∈ fs, f.skip = false → f.jsonName = p.1 → JsonSays env fl f.readTy p.2.1 p.2.2) ∧
    ((∀ f ∈ fs, f.skip = false → f.jsonName ≠ p.1) → PassedOver p.2.1)

theorem jMember_inv {n} {de : Ty → PM Val} {fs : List Field} {acc s acc' s'} (hd : DistinctNames fs)
    (hde : ∀ t, JGot env fl (de t) t) (hl : JLexed fl s) (ht : s.tok = .str)
    (e : jMember (jNext fl) n de fs acc s = .ok acc' s') :
    JLexed fl s' ∧ ∃ (b : Member (List Lexeme)) (sep : List Lexeme), JMemberSays env fl fs b ∧
      JTr fl s (b.lexemes ++ sep) s' ∧ acc' = Json.mstep fs acc b ∧
      (sep = [.punct .comma] ∨ (sep = [] ∧ s'.tok = .curlyClose)) := by
  have hn := jLexSound hfl
  have hw := AtL.string hl ht
  replace e : (jMemberValue (jNext fl) n de fs acc s.strbuf >>= fun acc' => eatCommaCurly (jNext fl) >>= fun _ => (pure acc' : PM _)) s =
    .ok acc' s' := e
  obtain ⟨r, s1, e1, e⟩ := M.bind_eq_ok.1 e
  obtain ⟨_, s2, e2, e⟩ := M.bind_eq_ok.1 e
  cases e
  unfold jMemberValue at e1
  by_cases he : fs.isEmpty = true
  · rw [if_pos he] at e1
    cases e1
    obtain ⟨e', h'⟩ := eatComma_err (nx := jNext fl) (what := ", or }") (close := .curlyClose) (st := s) (by rw [ht]; decide) (by rw [ht]; decide)
    unfold eatCommaCurly at e2
    rw [h'] at e2; cases e2
  rw [if_neg he] at e1
  have hne : fs ≠ [] := by rintro rfl; exact he rfl
  cases hff : findField fs s.strbuf with
  | none =>
    rw [hff] at e1
    obtain ⟨_, s3, e3, e1⟩ := M.bind_eq_ok.1 e1
    obtain ⟨_, s4, e4, e1⟩ := M.bind_eq_ok.1 e1
    cases e1
    obtain ⟨_, s5, e5, e3⟩ := M.bind_eq_ok.1 e3
    obtain ⟨l5, h5, t5, _⟩ := hn.step hw rfl rfl e5
    obtain ⟨_, l3, t3⟩ := hn.expect ⟨l5, h5⟩ e3 (by simp)
    obtain ⟨l4, ls, p4, t4⟩ := wholeField_inv hfl l3 e4
    obtain ⟨l2, sep, t2, h2⟩ := hn.sep l4 e2 (by decide)
    have unknown : ∀ f ∈ fs, f.skip = false → f.jsonName ≠ s.strbuf := by
      intro f hf hs hname
      obtain ⟨i, hi⟩ := List.getElem?_of_mem hf
      have := (findField_iff hd).2 ⟨f, hi, hs, hname⟩
      rw [hff] at this; cases this
    refine ⟨l2, (s.strbuf, ls, .unit), sep, ⟨hne, fun f hf hs hname => absurd hname (unknown f hf hs), fun _ => p4⟩, ?_, ?_, ?_⟩
    · simpa [Member.lexemes] using t5.append (t3.append (t4.append t2))
    · simp [Json.mstep, hff]
    · rcases h2 with ⟨_, h2⟩ | ⟨h2, h3, rfl⟩
      · exact .inl h2
      · exact .inr ⟨h2, h3⟩
  | some i =>
    rw [hff] at e1
    obtain ⟨f, hf, hs, hname⟩ := (findField_iff hd).1 hff
    have hget : fs.getD i { name := [], ty := .unit } = f := by simp [List.getD, hf]
    simp only [hget] at e1
    obtain ⟨_, s3, e3, e1⟩ := M.bind_eq_ok.1 e1
    obtain ⟨v, s4, e4, e1⟩ := M.bind_eq_ok.1 e1
    cases e1
    obtain ⟨w, e6, rfl⟩ := deField_inv e4
    obtain ⟨_, s5, e5, e3⟩ := M.bind_eq_ok.1 e3
    obtain ⟨l5, h5, t5, _⟩ := hn.step hw rfl rfl e5
    obtain ⟨_, l3, t3⟩ := hn.expect ⟨l5, h5⟩ e3 (by simp)
    obtain ⟨l2, ls, sep, hx, t2, h2⟩ := Got.sep hn (hde f.readTy) l3 e6 e2 (.inr (.inl rfl))
    refine ⟨l2, (s.strbuf, ls, w), sep, ⟨hne, fun g hg hgs hgn => ?_, fun h => absurd hname (h f (List.mem_of_getElem? hf) hs)⟩, ?_, ?_, h2⟩
    · obtain ⟨j, hj⟩ := List.getElem?_of_mem hg
      have h1 := (findField_iff hd).2 ⟨g, hj, hgs, hgn⟩
      rw [hff] at h1; injection h1 with h1; subst h1
      rw [hf] at hj; injection hj with hj; subst hj
      exact hx
    · simpa [Member.lexemes] using t5.append (t3.append t2)
    · simp [Json.mstep, hff, hf, List.getD]

theorem deJsonNamed_inv {de : Ty → PM Val} {fs : List Field} {cd n s vs s'} (hd : DistinctNames fs)
    (hde : ∀ t, JGot env fl (de t) t) (hl : JLexed fl s) (e : deJsonNamed (jNext fl) n de cd fs s = .ok vs s') :
    s.tok = .curlyOpen ∧ JLexed fl s' ∧ ∃ (ps : List (Member (List Lexeme))) (tr : Bool), JFieldsGet cd fs ps vs ∧
      (∀ p ∈ ps, ∀ f ∈ fs, f.skip = false → f.jsonName = p.1 → JsonSays env fl f.readTy p.2.1 p.2.2) ∧
      (∀ p ∈ ps, (∀ f ∈ fs, f.skip = false → f.jsonName ≠ p.1) → PassedOver p.2.1) ∧
      JTr fl s (inCurlies tr (ps.map Member.lexemes)) s' := by
  have hn := jLexSound hfl
  unfold deJsonNamed at e
  obtain ⟨_, s1, e1, e⟩ := M.bind_eq_ok.1 e
  obtain ⟨acc, s2, e2, e⟩ := M.bind_eq_ok.1 e
  obtain ⟨_, s3, e3, e4⟩ := M.bind_eq_ok.1 e
  obtain ⟨h0, l1, t1⟩ := hn.expect hl e1 (by simp)
  obtain ⟨l2, ps, tr, hps, t2, rfl, _⟩ := trIs_inv (t := .str) (close := .curlyClose) (by decide)
    (R := fun _ (b : Member (List Lexeme)) => JMemberSays env fl fs b)
    (step := Json.mstep fs) (lx := Member.lexemes)
    (fun acc s acc' s' hl ht e => jMember_inv hfl hd hde hl ht e) n l1 e2
  obtain ⟨_, l3, t3⟩ := hn.expect l2 e3 (by simp)
  have hps := hps.forall
  have he : fs = [] → ps = [] := by
    intro h
    cases ps with
    | nil => rfl
    | cons p ps => exact absurd h (hps p (by simp)).1
  have hu := unwrapFields_agree cd fs (ps.foldl (Json.mstep fs) (fs.map fun _ => none)) s3
  have hs3 : s' = s3 ∧ decUnwrap cd fs (ps.foldl (Json.mstep fs) (fs.map fun _ => none)) = .ok vs := by
    cases hx : decUnwrap cd fs (ps.foldl (Json.mstep fs) (fs.map fun _ => none)) with
    | ok w =>
      rw [hx] at hu
      obtain ⟨s4, h4, rfl⟩ := hu
      rw [e4] at h4; injection h4 with h4 h5
      exact ⟨h5, by rw [h4]⟩
    | err =>
      rw [hx] at hu
      obtain ⟨e, s4, h4⟩ := hu
      rw [e4] at h4; cases h4
    | panic =>
      rw [hx] at hu
      replace hu : unwrapFields cd fs _ s3 = .panic := hu
      rw [e4] at hu; cases hu
    | oof => exact absurd hx (decUnwrap_ne _ _ _)
  obtain ⟨rfl, hs3⟩ := hs3
  refine ⟨h0, l3, ps, tr, (Json.unwrap_iff hd he).1 hs3, fun p hp => (hps p hp).2.1, fun p hp => (hps p hp).2.2, ?_⟩
  simpa [inCurlies] using t1.append (t2.append t3)

end NS
