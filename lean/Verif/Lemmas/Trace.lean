import Verif.Lemmas.Agree
import Verif.Lemmas.Monad
import Verif.Spec.JsonDoc
import Verif.Model.Json
/-! What a successful run of the readers has consumed: a generic account for JSON and RON. -/
namespace NS

/-- Tokens that never begin a value. -/
def NotSep (t : Tok) : Prop :=
  t ≠ .comma ∧ t ≠ .colon ∧ t ≠ .blockClose ∧ t ≠ .curlyClose ∧ t ≠ .parenClose

/-- What is needed of a lexer: every call reads a lexeme, and tokens determine lexemes. -/
structure LexSound (nx : PM Unit) (tk : Lexeme → Tok) (Lx : List Char → Lexeme → List Char → Prop) : Prop where
  next : ∀ {s s'}, nx s = .ok () s' → ∃ l, Lx s.cur.txt l s'.cur.txt ∧ s'.tok = tk l ∧
    s'.strbuf = l.sb.getD s.strbuf ∧ s'.identbuf = l.ib.getD s.identbuf
  punct : ∀ {a l b t}, Lx a l b → tk l = t → t ∈ [Tok.comma, .colon, .blockOpen, .blockClose, .curlyOpen, .curlyClose,
    .parenOpen, .parenClose] → l = .punct t
  str : ∀ {a l b}, Lx a l b → tk l = .str → ∃ s, l = .str s
  u64 : ∀ {a l b v}, Lx a l b → tk l = .u64 v → l = .num (.nat v) ∧ v ≤ u64Max
  i64 : ∀ {a l b v}, Lx a l b → tk l = .i64 v → l = .num (.neg v) ∧ -(2 ^ 63) ≤ v ∧ v ≤ 0
  f64 : ∀ {a l b x}, Lx a l b → tk l = .f64 x → l = .num (.float x)
  bool : ∀ {a l b x}, Lx a l b → tk l = .bool x →
    l = .word (if x then ['t', 'r', 'u', 'e'] else ['f', 'a', 'l', 's', 'e'])

/-- The current token of the state is the lexeme `l`. -/
structure AtL (tk : Lexeme → Tok) (Lx : List Char → Lexeme → List Char → Prop) (s : PSt) (l : Lexeme) : Prop where
  tok : s.tok = tk l
  sb : ∀ b, l.sb = some b → s.strbuf = b
  ib : ∀ b, l.ib = some b → s.identbuf = b
  ok : ∃ a b, Lx a l b

/-- The current token is a lexeme. -/
def Lexed (tk : Lexeme → Tok) (Lx : List Char → Lexeme → List Char → Prop) (s : PSt) : Prop := ∃ l, AtL tk Lx s l

/-- Between the two states the lexemes `ls` have been consumed. -/
inductive Tr (tk : Lexeme → Tok) (Lx : List Char → Lexeme → List Char → Prop) : PSt → List Lexeme → PSt → Prop where
  | nil {s} : Tr tk Lx s [] s
  | cons {s l l' s1 ls s2} : AtL tk Lx s l → Lx s.cur.txt l' s1.cur.txt → AtL tk Lx s1 l' → Tr tk Lx s1 ls s2 →
      Tr tk Lx s (l :: ls) s2

section
variable {nx : PM Unit} {tk : Lexeme → Tok} {Lx : List Char → Lexeme → List Char → Prop}

theorem Tr.append {s a s1 b s2} (h : Tr tk Lx s a s1) (h' : Tr tk Lx s1 b s2) : Tr tk Lx s (a ++ b) s2 := by
  induction h with
  | nil => exact h'
  | cons h1 h2 h3 _ ih => exact .cons h1 h2 h3 (ih h')

theorem Tr.eq_nil {s s'} (h : Tr tk Lx s [] s') : s' = s := by cases h; rfl

variable (hn : LexSound nx tk Lx)
include hn

theorem LexSound.step {s l s0 s1} (h : AtL tk Lx s l) (hc : s0.cur = s.cur) (hi : s0.identbuf = s.identbuf)
    (e : nx s0 = .ok () s1) :
    ∃ l', AtL tk Lx s1 l' ∧ Tr tk Lx s [l] s1 ∧ Lx s.cur.txt l' s1.cur.txt ∧ (l'.ib = none → s1.identbuf = s.identbuf) := by
  obtain ⟨l', h1, h2, h3, h4⟩ := hn.next e
  rw [hc] at h1
  have h' : AtL tk Lx s1 l' := ⟨h2, fun b hb => by rw [h3, hb]; rfl, fun b hb => by rw [h4, hb]; rfl, _, _, h1⟩
  exact ⟨l', h', .cons h h1 h' .nil, h1, fun hb => by rw [h4, hb]; exact hi⟩

/-- Consuming an expected punctuation token. -/
theorem LexSound.expect {s s' t what} (h : Lexed tk Lx s) (e : expectTok nx t what s = .ok () s')
    (ht : t ∈ [Tok.comma, .colon, .blockOpen, .blockClose, .curlyOpen, .curlyClose, .parenOpen, .parenClose]) :
    s.tok = t ∧ Lexed tk Lx s' ∧ Tr tk Lx s [.punct t] s' := by
  obtain ⟨l, h⟩ := h
  by_cases hs : s.tok = t
  · rw [expectTok_ok hs] at e
    obtain ⟨a, b, hl⟩ := h.ok
    have := hn.punct hl (h.tok.symm.trans hs) ht
    subst this
    obtain ⟨l', h1, h2, _⟩ := hn.step h rfl rfl e
    exact ⟨hs, ⟨l', h1⟩, h2⟩
  · obtain ⟨e', h'⟩ := expectTok_err (nx := nx) (what := what) hs
    rw [h'] at e; cases e

/-- Consuming a separator. -/
theorem LexSound.eat {s s' close what} (h : Lexed tk Lx s) (e : eatComma nx close what s = .ok () s') :
    ¬ NotSep s.tok ∨ s.tok = close ∧ s' = s := by
  by_cases h1 : s.tok = .comma
  · exact .inl fun h => h.1 h1
  · by_cases h2 : s.tok = close
    · rw [eatComma_close h2 (by rw [← h2]; exact h1)] at e
      injection e with _ e
      exact .inr ⟨h2, e.symm⟩
    · obtain ⟨e', h'⟩ := eatComma_err (nx := nx) (what := what) h2 h1
      rw [h'] at e; cases e

/-- After an item there is a comma, or the closing bracket, where reading stays. -/
theorem LexSound.sep {s s' close what} (h : Lexed tk Lx s) (e : eatComma nx close what s = .ok () s') (hc : close ≠ .comma) :
    Lexed tk Lx s' ∧ ∃ sep, Tr tk Lx s sep s' ∧ (s.tok = .comma ∧ sep = [.punct .comma] ∨ sep = [] ∧ s.tok = close ∧ s' = s) := by
  obtain ⟨l, hl⟩ := h
  by_cases h1 : s.tok = .comma
  · rw [eatComma_comma h1] at e
    obtain ⟨a, b, hx⟩ := hl.ok
    have := hn.punct hx (hl.tok.symm.trans h1) (by simp)
    subst this
    obtain ⟨l', h1', h2, _⟩ := hn.step hl rfl rfl e
    exact ⟨⟨l', h1'⟩, _, h2, .inl ⟨h1, rfl⟩⟩
  · by_cases h2 : s.tok = close
    · rw [eatComma_close h2 hc] at e
      injection e with _ e
      subst e
      exact ⟨⟨l, hl⟩, [], .nil, .inr ⟨rfl, h2, rfl⟩⟩
    · obtain ⟨e', h'⟩ := eatComma_err (nx := nx) (what := what) h2 h1
      rw [h'] at e; cases e

omit hn

/-- What a reader of values does when it succeeds: it has consumed lexemes `ls` with `P ls v`, or
something unusual has happened (`Qk`), after which no separator follows. -/
def Got (tk : Lexeme → Tok) (Lx : List Char → Lexeme → List Char → Prop) (rd : PM Val) (P : List Lexeme → Val → Prop)
    (Qk : PSt → Val → PSt → Prop) : Prop :=
  ∀ s v s', Lexed tk Lx s → rd s = .ok v s' → NotSep s.tok ∧ Lexed tk Lx s' ∧
    ((∃ ls, P ls v ∧ Tr tk Lx s ls s') ∨ (Qk s v s' ∧ NotSep s'.tok))

/-- The conditions of the rounds of a loop. -/
def AllSteps {α β : Type} (R : α → β → Prop) (step : α → β → α) : α → List β → Prop
  | _, [] => True
  | acc, b :: bs => R acc b ∧ AllSteps R step (step acc b) bs

theorem AllSteps.forall {α β : Type} {R : β → Prop} {step : α → β → α} {acc} {bs : List β}
    (h : AllSteps (fun _ => R) step acc bs) : ∀ b ∈ bs, R b := by
  induction bs generalizing acc with
  | nil => simp
  | cons b bs ih =>
    intro x hx
    rcases List.mem_cons.1 hx with rfl | hx
    · exact h.1
    · exact ih h.2 x hx

/-- Putting an item with its separator before further items. -/
theorem Tr.item {s a s1 bs s2 close} {tr : Bool} {sep : List Lexeme} (h : Tr tk Lx s (a ++ sep) s1)
    (hsep : sep = [.punct .comma] ∨ (sep = [] ∧ s1.tok = close))
    (h' : Tr tk Lx s1 (commaLexemes tr bs) s2) (hb : bs ≠ [] → s1.tok ≠ close) :
    ∃ tr, Tr tk Lx s (commaLexemes tr (a :: bs)) s2 := by
  cases bs with
  | nil =>
    have := Tr.eq_nil h'
    subst this
    rcases hsep with rfl | ⟨rfl, _⟩
    · exact ⟨true, by simpa [commaLexemes] using h⟩
    · exact ⟨false, by simpa [commaLexemes] using h⟩
  | cons b bs =>
    rcases hsep with rfl | ⟨rfl, hc⟩
    · refine ⟨tr, ?_⟩
      have := h.append h'
      simpa [commaLexemes] using this
    · exact absurd hc (hb (by simp))

theorem trNot_inv {α β : Type} {close : Tok} {item : α → PM α} {step : α → β → α} {lx : β → List Lexeme}
    {R : α → β → Prop}
    (hitem : ∀ acc s acc' s', Lexed tk Lx s → s.tok ≠ close → item acc s = .ok acc' s' →
      Lexed tk Lx s' ∧ ∃ b sep, R acc b ∧ Tr tk Lx s (lx b ++ sep) s' ∧ acc' = step acc b ∧
        (sep = [.punct .comma] ∨ (sep = [] ∧ s'.tok = close)))
    (n : Nat) : ∀ {acc s acc' s'}, Lexed tk Lx s → whileNot close item n acc s = .ok acc' s' →
      Lexed tk Lx s' ∧ s'.tok = close ∧ ∃ bs tr, AllSteps R step acc bs ∧ Tr tk Lx s (commaLexemes tr (bs.map lx)) s' ∧
        acc' = bs.foldl step acc ∧ (bs ≠ [] → s.tok ≠ close) := by
  induction n with
  | zero => intro acc s acc' s' _ h; cases h
  | succ n ih =>
    intro acc s acc' s' hl h
    replace h : (if s.tok = close then Pure.pure acc else (item acc >>= fun acc' => whileNot close item n acc') : PM α) s =
      .ok acc' s' := h
    by_cases ht : s.tok = close
    · rw [if_pos ht] at h
      cases h
      exact ⟨hl, ht, [], false, trivial, .nil, rfl, fun h => absurd rfl h⟩
    · rw [if_neg ht] at h
      obtain ⟨acc1, s1, e1, e2⟩ := M.bind_eq_ok.1 h
      obtain ⟨hl1, b, sep, hR, htr, rfl, hsep⟩ := hitem _ _ _ _ hl ht e1
      obtain ⟨hl2, hc, bs, tr, hbs, htr', rfl, hb⟩ := ih hl1 e2
      obtain ⟨tr', hfin⟩ := htr.item hsep htr' (by simpa using hb)
      exact ⟨hl2, hc, b :: bs, tr', ⟨hR, hbs⟩, hfin, rfl, fun _ => ht⟩

theorem trIs_inv {α β : Type} {t close : Tok} (hne : close ≠ t) {item : α → PM α} {step : α → β → α} {lx : β → List Lexeme}
    {R : α → β → Prop}
    (hitem : ∀ acc s acc' s', Lexed tk Lx s → s.tok = t → item acc s = .ok acc' s' →
      Lexed tk Lx s' ∧ ∃ b sep, R acc b ∧ Tr tk Lx s (lx b ++ sep) s' ∧ acc' = step acc b ∧
        (sep = [.punct .comma] ∨ (sep = [] ∧ s'.tok = close)))
    (n : Nat) : ∀ {acc s acc' s'}, Lexed tk Lx s → whileIs t item n acc s = .ok acc' s' →
      Lexed tk Lx s' ∧ ∃ bs tr, AllSteps R step acc bs ∧ Tr tk Lx s (commaLexemes tr (bs.map lx)) s' ∧
        acc' = bs.foldl step acc ∧ (bs ≠ [] → s.tok = t) := by
  induction n with
  | zero => intro acc s acc' s' _ h; cases h
  | succ n ih =>
    intro acc s acc' s' hl h
    replace h : (if s.tok = t then (item acc >>= fun acc' => whileIs t item n acc') else Pure.pure acc : PM α) s =
      .ok acc' s' := h
    by_cases ht : s.tok = t
    · rw [if_pos ht] at h
      obtain ⟨acc1, s1, e1, e2⟩ := M.bind_eq_ok.1 h
      obtain ⟨hl1, b, sep, hR, htr, rfl, hsep⟩ := hitem _ _ _ _ hl ht e1
      obtain ⟨hl2, bs, tr, hbs, htr', rfl, hb⟩ := ih hl1 e2
      obtain ⟨tr', hfin⟩ := htr.item hsep htr' (fun h => by rw [hb (by simpa using h)]; exact hne.symm)
      exact ⟨hl2, b :: bs, tr', ⟨hR, hbs⟩, hfin, rfl, fun _ => ht⟩
    · rw [if_neg ht] at h
      cases h
      exact ⟨hl, [], false, trivial, .nil, rfl, fun h => absurd rfl h⟩

variable {P : List Lexeme → Val → Prop} {Qk : PSt → Val → PSt → Prop}

include hn

/-- A value and the separator after it. -/
theorem Got.sep {rd : PM Val} (h : Got tk Lx rd P Qk) {s v s' s1 close what} (hl : Lexed tk Lx s) (e : rd s = .ok v s1)
    (e' : eatComma nx close what s1 = .ok () s') (hc : close = .blockClose ∨ close = .curlyClose ∨ close = .parenClose) :
    Lexed tk Lx s' ∧ ∃ ls sep, P ls v ∧ Tr tk Lx s (ls ++ sep) s' ∧
      (sep = [.punct .comma] ∨ (sep = [] ∧ s'.tok = close)) := by
  obtain ⟨_, hl1, h1⟩ := h _ _ _ hl e
  obtain ⟨hl2, sep, h2, h3⟩ := hn.sep hl1 e' (by rcases hc with rfl | rfl | rfl <;> decide)
  rcases h1 with ⟨ls, hp, htr⟩ | ⟨_, hns⟩
  · refine ⟨hl2, ls, sep, hp, htr.append h2, ?_⟩
    rcases h3 with ⟨_, h3⟩ | ⟨h3, h4, rfl⟩
    · exact .inl h3
    · exact .inr ⟨h3, h4⟩
  · exfalso
    rcases h3 with ⟨h3, _⟩ | ⟨_, h3, _⟩
    · exact hns.1 h3
    · rcases hc with rfl | rfl | rfl
      · exact hns.2.2.1 h3
      · exact hns.2.2.2.1 h3
      · exact hns.2.2.2.2 h3

theorem Got.colon {rd : PM Val} (h : Got tk Lx rd P Qk) {s v s' s1} (hl : Lexed tk Lx s) (e : rd s = .ok v s1)
    (e' : NS.colon nx s1 = .ok () s') :
    Lexed tk Lx s' ∧ ∃ ls, P ls v ∧ Tr tk Lx s (ls ++ [.punct .colon]) s' := by
  obtain ⟨_, hl1, h1⟩ := h _ _ _ hl e
  obtain ⟨h0, hl2, h2⟩ := hn.expect hl1 e' (by simp)
  rcases h1 with ⟨ls, hp, htr⟩ | ⟨_, hns⟩
  · exact ⟨hl2, ls, hp, htr.append h2⟩
  · exact absurd h0 hns.2.1

/-- Lists, sets. -/
theorem Got.deSeq {rd : PM Val} (h : Got tk Lx rd P Qk) {n add s v s'} (hl : Lexed tk Lx s)
    (e : NS.deSeq nx n rd add s = .ok v s') :
    s.tok = .blockOpen ∧ Lexed tk Lx s' ∧ ∃ (ps : List (List Lexeme × Val)) (tr : Bool), (∀ p ∈ ps, P p.1 p.2) ∧
      Tr tk Lx s (.punct .blockOpen :: (commaLexemes tr (ps.map (·.1)) ++ [.punct .blockClose])) s' ∧
      v = .seq ((ps.map (·.2)).foldl add []) := by
  unfold NS.deSeq at e
  obtain ⟨_, s1, e1, e⟩ := M.bind_eq_ok.1 e
  obtain ⟨acc, s2, e2, e⟩ := M.bind_eq_ok.1 e
  obtain ⟨_, s3, e3, e⟩ := M.bind_eq_ok.1 e
  cases e
  obtain ⟨h0, hl1, t1⟩ := hn.expect hl e1 (by simp)
  obtain ⟨hl2, _, bs, tr, hbs, t2, rfl, _⟩ := trNot_inv (R := fun _ (p : List Lexeme × Val) => P p.1 p.2)
    (step := fun acc p => add acc p.2) (lx := fun p => p.1) (fun acc s acc' s' hl _ e => by
      unfold seqItem at e
      obtain ⟨v, s1, e1, e⟩ := M.bind_eq_ok.1 e
      obtain ⟨_, s2, e2, e⟩ := M.bind_eq_ok.1 e
      cases e
      obtain ⟨hl', ls, sep, g1, g2, g3⟩ := Got.sep hn h hl e1 e2 (.inl rfl)
      exact ⟨hl', (ls, v), sep, g1, g2, rfl, g3⟩) n hl1 e2
  obtain ⟨_, hl3, t3⟩ := hn.expect hl2 e3 (by simp)
  refine ⟨h0, hl3, bs, tr, hbs.forall, ?_, ?_⟩
  · simpa using t1.append (t2.append t3)
  · rw [List.foldl_map]

/-- Maps. -/
theorem Got.deMap {rk rv : PM Val} {P' : List Lexeme → Val → Prop} {Qk' : PSt → Val → PSt → Prop} (hk : Got tk Lx rk P Qk) (hv : Got tk Lx rv P' Qk')
    {n add s v s'} (hl : Lexed tk Lx s) (e : NS.deMap nx n rk rv add s = .ok v s') :
    s.tok = .curlyOpen ∧ Lexed tk Lx s' ∧ ∃ (ps : List ((List Lexeme × Val) × (List Lexeme × Val))) (tr : Bool),
      (∀ p ∈ ps, P p.1.1 p.1.2 ∧ P' p.2.1 p.2.2) ∧
      Tr tk Lx s (.punct .curlyOpen :: (commaLexemes tr (ps.map fun p => p.1.1 ++ .punct .colon :: p.2.1) ++ [.punct .curlyClose])) s' ∧
      v = .seq ((ps.map fun p => Val.entry p.1.2 p.2.2).foldl add []) := by
  unfold NS.deMap at e
  obtain ⟨_, s1, e1, e⟩ := M.bind_eq_ok.1 e
  obtain ⟨acc, s2, e2, e⟩ := M.bind_eq_ok.1 e
  obtain ⟨_, s3, e3, e⟩ := M.bind_eq_ok.1 e
  cases e
  obtain ⟨h0, hl1, t1⟩ := hn.expect hl e1 (by simp)
  obtain ⟨hl2, _, bs, tr, hbs, t2, rfl, _⟩ := trNot_inv
    (R := fun _ (p : (List Lexeme × Val) × (List Lexeme × Val)) => P p.1.1 p.1.2 ∧ P' p.2.1 p.2.2)
    (step := fun acc p => add acc (.entry p.1.2 p.2.2)) (lx := fun p => p.1.1 ++ .punct .colon :: p.2.1) (fun acc s acc' s' hl _ e => by
      unfold mapItem at e
      obtain ⟨a, s1, e1, e⟩ := M.bind_eq_ok.1 e
      obtain ⟨_, s2, e2, e⟩ := M.bind_eq_ok.1 e
      obtain ⟨b, s3, e3, e⟩ := M.bind_eq_ok.1 e
      obtain ⟨_, s4, e4, e⟩ := M.bind_eq_ok.1 e
      cases e
      obtain ⟨hl1, ks, k1, k2⟩ := Got.colon hn hk hl e1 e2
      obtain ⟨hl', ls, sep, g1, g2, g3⟩ := Got.sep hn hv hl1 e3 e4 (.inr (.inl rfl))
      refine ⟨hl', ((ks, a), (ls, b)), sep, ⟨k1, g1⟩, ?_, rfl, g3⟩
      simpa using k2.append g2) n hl1 e2
  obtain ⟨_, hl3, t3⟩ := hn.expect hl2 e3 (by simp)
  refine ⟨h0, hl3, bs, tr, hbs.forall, ?_, ?_⟩
  · simpa using t1.append (t2.append t3)
  · rw [List.foldl_map]

variable {PT : Ty → List Lexeme → Val → Prop} {QT : Ty → PSt → Val → PSt → Prop} {close : Tok} {what : String}

omit hn in
theorem thenEat_eq_ok {x : PM Val} {eat : PM Unit} {s v s'} :
    thenEat x eat s = .ok v s' ↔ ∃ s1, x s = .ok v s1 ∧ eat s1 = .ok () s' := by
  unfold thenEat
  constructor
  · intro e
    obtain ⟨a, s1, e1, e⟩ := M.bind_eq_ok.1 e
    obtain ⟨_, s2, e2, e⟩ := M.bind_eq_ok.1 e
    cases e
    exact ⟨s1, e1, e2⟩
  · rintro ⟨s1, e1, e2⟩
    rw [M.bind_ok e1, M.bind_ok e2]; rfl

omit hn in
theorem commaAfter_eq_ok {x : PM Val} {eat : PM Unit} {s v s'} :
    commaAfter x eat s = .ok v s' ↔ ∃ s1, x s = .ok v s1 ∧ eat s1 = .ok () s' := by
  rw [← thenEat_eq_ok]
  unfold commaAfter thenEat
  cases hx : x s with
  | ok a s1 => rw [M.bind_ok hx]
  | err e s1 =>
    rw [M.bind_err hx]
    cases he : eat s1 <;> simp [he]
  | panic => rw [M.bind_panic hx]
  | oof => rw [M.bind_oof hx]

/-- Components up to the closing bracket. -/
theorem Got.tys {rd : Ty → PM Val} {f : List Ty → PM (List Val)}
    (hf0 : f [] = Pure.pure [])
    (hf : ∀ t ts s vs s', f (t :: ts) s = .ok vs s' → ∃ v vs' s1 s2, rd t s = .ok v s1 ∧ eatComma nx close what s1 = .ok () s2 ∧
      f ts s2 = .ok vs' s' ∧ vs = v :: vs')
    (hc : close = .blockClose ∨ close = .curlyClose ∨ close = .parenClose) (ts : List Ty)
    (h : ∀ t ∈ ts, Got tk Lx (rd t) (PT t) (QT t)) :
    ∀ {s vs s'}, Lexed tk Lx s → f ts s = .ok vs s' → Lexed tk Lx s' ∧ (ts ≠ [] → s.tok ≠ close) ∧
      ∃ (ps : List (Ty × List Lexeme × Val)) (tr : Bool), ps.map (·.1) = ts ∧ (∀ p ∈ ps, PT p.1 p.2.1 p.2.2) ∧
        Tr tk Lx s (commaLexemes tr (ps.map fun p => p.2.1)) s' ∧ vs = ps.map (·.2.2) := by
  induction ts with
  | nil =>
    intro s vs s' hl e
    rw [hf0] at e
    cases e
    exact ⟨hl, fun h => absurd rfl h, [], false, rfl, by simp, .nil, rfl⟩
  | cons t ts ih =>
    intro s vs s' hl e
    obtain ⟨v, vs', s1, s2, e1, e2, e3, rfl⟩ := hf _ _ _ _ _ e
    have hns := (h t (by simp) _ _ _ hl e1).1
    obtain ⟨hl2, ls, sep, g1, g2, g3⟩ := Got.sep hn (h t (by simp)) hl e1 e2 hc
    obtain ⟨hl3, hne, ps, tr, p1, p2, p3, rfl⟩ := ih (fun t ht => h t (by simp [ht])) hl2 e3
    obtain ⟨tr', hfin⟩ := g2.item g3 p3 (fun hb => hne (by rw [← p1]; simpa using hb))
    refine ⟨hl3, fun _ hs => ?_, (t, ls, v) :: ps, tr', by simp [p1], ?_, hfin, rfl⟩
    · rcases hc with rfl | rfl | rfl
      · exact hns.2.2.1 hs
      · exact hns.2.2.2.1 hs
      · exact hns.2.2.2.2 hs
    · intro p hp
      rcases List.mem_cons.1 hp with rfl | hp
      · exact g1
      · exact p2 p hp

theorem Got.deTysEat {rd : Ty → PM Val} (hc : close = .blockClose ∨ close = .curlyClose ∨ close = .parenClose) (ts : List Ty)
    (h : ∀ t ∈ ts, Got tk Lx (rd t) (PT t) (QT t)) {s vs s'} (hl : Lexed tk Lx s)
    (e : NS.deTysEat rd (eatComma nx close what) ts s = .ok vs s') : Lexed tk Lx s' ∧ (ts ≠ [] → s.tok ≠ close) ∧
      ∃ (ps : List (Ty × List Lexeme × Val)) (tr : Bool), ps.map (·.1) = ts ∧ (∀ p ∈ ps, PT p.1 p.2.1 p.2.2) ∧
        Tr tk Lx s (commaLexemes tr (ps.map fun p => p.2.1)) s' ∧ vs = ps.map (·.2.2) := by
  refine Got.tys hn (f := NS.deTysEat rd (eatComma nx close what)) (rd := rd) (what := what) rfl ?_ hc ts h hl e
  intro t ts s vs s' e
  obtain ⟨v, s1, e1, e⟩ := M.bind_eq_ok.1 e
  obtain ⟨vs', s2, e2, e⟩ := M.bind_eq_ok.1 e
  cases e
  obtain ⟨s3, e3, e4⟩ := thenEat_eq_ok.1 e1
  exact ⟨v, vs', s3, s1, e3, e4, e2, rfl⟩

theorem Got.deTysComma {rd : Ty → PM Val} (hc : close = .blockClose ∨ close = .curlyClose ∨ close = .parenClose) (ts : List Ty)
    (h : ∀ t ∈ ts, Got tk Lx (rd t) (PT t) (QT t)) {s vs s'} (hl : Lexed tk Lx s)
    (e : NS.deTysComma rd (eatComma nx close what) ts s = .ok vs s') : Lexed tk Lx s' ∧ (ts ≠ [] → s.tok ≠ close) ∧
      ∃ (ps : List (Ty × List Lexeme × Val)) (tr : Bool), ps.map (·.1) = ts ∧ (∀ p ∈ ps, PT p.1 p.2.1 p.2.2) ∧
        Tr tk Lx s (commaLexemes tr (ps.map fun p => p.2.1)) s' ∧ vs = ps.map (·.2.2) := by
  refine Got.tys hn (f := NS.deTysComma rd (eatComma nx close what)) (rd := rd) (what := what) rfl ?_ hc ts h hl e
  intro t ts s vs s' e
  obtain ⟨v, s1, e1, e⟩ := M.bind_eq_ok.1 e
  obtain ⟨vs', s2, e2, e⟩ := M.bind_eq_ok.1 e
  cases e
  obtain ⟨s3, e3, e4⟩ := commaAfter_eq_ok.1 e1
  exact ⟨v, vs', s3, s1, e3, e4, e2, rfl⟩

/-- Arrays. -/
theorem Got.repeatM {rd : PM Val} (h : Got tk Lx rd P Qk) (hc : close = .blockClose ∨ close = .curlyClose ∨ close = .parenClose)
    (m : Nat) : ∀ {s vs s'}, Lexed tk Lx s → NS.repeatM (thenEat rd (eatComma nx close what)) m s = .ok vs s' →
      Lexed tk Lx s' ∧ (m ≠ 0 → s.tok ≠ close) ∧
      ∃ (ps : List (List Lexeme × Val)) (tr : Bool), ps.length = m ∧ (∀ p ∈ ps, P p.1 p.2) ∧
        Tr tk Lx s (commaLexemes tr (ps.map (·.1))) s' ∧ vs = ps.map (·.2) := by
  induction m with
  | zero =>
    intro s vs s' hl e
    cases e
    exact ⟨hl, fun h => absurd rfl h, [], false, rfl, by simp, .nil, rfl⟩
  | succ m ih =>
    intro s vs s' hl e
    obtain ⟨v, s2, e1, e⟩ := M.bind_eq_ok.1 e
    obtain ⟨vs', s3, e3, e⟩ := M.bind_eq_ok.1 e
    cases e
    obtain ⟨s1, e1, e2⟩ := thenEat_eq_ok.1 e1
    have hns := (h _ _ _ hl e1).1
    obtain ⟨hl2, ls, sep, g1, g2, g3⟩ := Got.sep hn h hl e1 e2 hc
    obtain ⟨hl3, hne, ps, tr, p1, p2, p3, rfl⟩ := ih hl2 e3
    obtain ⟨tr', hfin⟩ := g2.item g3 p3 (fun hb => hne (by rw [← p1]; simpa using hb))
    refine ⟨hl3, fun _ hs => ?_, (ls, v) :: ps, tr', by simp [p1], ?_, hfin, rfl⟩
    · rcases hc with rfl | rfl | rfl
      · exact hns.2.2.1 hs
      · exact hns.2.2.2.1 hs
      · exact hns.2.2.2.2 hs
    · intro p hp
      rcases List.mem_cons.1 hp with rfl | hp
      · exact g1
      · exact p2 p hp

/-! ## Scalars -/

theorem LexSound.number {s s' s0} (hl : Lexed tk Lx s) (hc : s0.cur = s.cur) (hi : s0.identbuf = s.identbuf) (e : nx s0 = .ok () s') :
    Lexed tk Lx s' ∧ (∀ {v}, s.tok = .u64 v → v ≤ u64Max ∧ Tr tk Lx s [.num (.nat v)] s') ∧
      (∀ {v}, s.tok = .i64 v → -(2 ^ 63) ≤ v ∧ v ≤ 0 ∧ Tr tk Lx s [.num (.neg v)] s') ∧
      (∀ {x}, s.tok = .f64 x → Tr tk Lx s [.num (.float x)] s') ∧
      (∀ {x}, s.tok = .bool x → Tr tk Lx s [.word (if x then ['t', 'r', 'u', 'e'] else ['f', 'a', 'l', 's', 'e'])] s') := by
  obtain ⟨l, h⟩ := hl
  obtain ⟨l', h1, h2, _⟩ := hn.step h hc hi e
  obtain ⟨a, b, hx⟩ := h.ok
  refine ⟨⟨l', h1⟩, fun {v} ht => ?_, fun {v} ht => ?_, fun {v} ht => ?_, fun {v} ht => ?_⟩
  · obtain ⟨rfl, g⟩ := hn.u64 hx (h.tok.symm.trans ht); exact ⟨g, h2⟩
  · obtain ⟨rfl, g, g'⟩ := hn.i64 hx (h.tok.symm.trans ht); exact ⟨g, g', h2⟩
  · obtain rfl := hn.f64 hx (h.tok.symm.trans ht); exact h2
  · obtain rfl := hn.bool hx (h.tok.symm.trans ht); exact h2

theorem LexSound.deStr {s v s'} (hl : Lexed tk Lx s) (e : NS.deStr nx s = .ok v s') :
    s.tok = .str ∧ Lexed tk Lx s' ∧ Tr tk Lx s [.str v] s' := by
  obtain ⟨l, h⟩ := hl
  obtain ⟨w, s1, e1, e⟩ := M.bind_eq_ok.1 e
  obtain ⟨_, s2, e2, e⟩ := M.bind_eq_ok.1 e
  cases e
  replace e1 : (if s.tok = .str then (M.set { s with strbuf := [] } >>= fun _ => Pure.pure s.strbuf) else errToken "string" : PM _) s =
    .ok v s1 := e1
  by_cases ht : s.tok = .str
  · rw [if_pos ht] at e1
    cases e1
    obtain ⟨a, b, hx⟩ := h.ok
    obtain ⟨w, rfl⟩ := hn.str hx (h.tok.symm.trans ht)
    obtain ⟨l', h1, h2, _⟩ := hn.step (s0 := { s with strbuf := [] }) h rfl rfl e2
    rw [h.sb w rfl]
    exact ⟨ht, ⟨l', h1⟩, h2⟩
  · rw [if_neg ht] at e1; cases e1

end
end NS
