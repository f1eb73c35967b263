import Verif.Lemmas.RonScan
import Verif.Lemmas.Trace
import Verif.Lemmas.JsonMeans2
import Verif.Lemmas.JsonRefine4
/-! What the RON reader accepts: the lexer and scalars. -/
namespace NS
variable {fl : FloatOps} {env : Env}

/-- The lexeme that a token and the buffers stand for. -/
def lexemeOf (s : PSt) : Lexeme :=
  match s.tok with
  | .str => .str s.strbuf
  | .ident => .word s.identbuf
  | .bool b => .word (if b then ['t', 'r', 'u', 'e'] else ['f', 'a', 'l', 's', 'e'])
  | .u64 v => .num (.nat v)
  | .i64 v => .num (.neg v)
  | .f64 x => .num (.float x)
  | .eof => .eof
  | t => .punct t

theorem RLex.form {a l b} (h : RLex fl a l b) : l = .eof ∨ ∃ s, RSpells' fl l s := by
  rcases h with ⟨rfl, _⟩ | h
  · exact .inl rfl
  · cases h with
    | cons _ h _ _ => exact .inr ⟨_, h⟩

/-- The lexemes of RON. -/
theorem RLex.cases {a l b} (h : RLex fl a l b) : l = .eof ∨ (∃ t, l = .punct t ∧ t ∈ [Tok.comma, .colon, .blockOpen,
    .blockClose, .curlyOpen, .curlyClose, .parenOpen, .parenClose]) ∨ (∃ w, l = .word w) ∨ (∃ s, l = .str s) ∨
    ∃ t, l = .num t ∧ (∀ n, t = .nat n → n ≤ u64Max) ∧ (∀ i, t = .neg i → -(2 ^ 63) ≤ i ∧ i ≤ 0) := by
  rcases h.form with rfl | ⟨s, h | ⟨t, rfl, f, ex, x, h1, h2, h3, h4, rfl⟩⟩
  · exact .inl rfl
  · right
    cases h with
    | colon => exact .inl ⟨_, rfl, by simp⟩
    | comma => exact .inl ⟨_, rfl, by simp⟩
    | blockOpen => exact .inl ⟨_, rfl, by simp⟩
    | blockClose => exact .inl ⟨_, rfl, by simp⟩
    | curlyOpen => exact .inl ⟨_, rfl, by simp⟩
    | curlyClose => exact .inl ⟨_, rfl, by simp⟩
    | parenOpen => exact .inl ⟨_, rfl, by simp⟩
    | parenClose => exact .inl ⟨_, rfl, by simp⟩
    | word _ => exact .inr (.inl ⟨_, rfl⟩)
    | str _ => exact .inr (.inr (.inl ⟨_, rfl⟩))
    | num h =>
      refine .inr (.inr (.inr ⟨_, rfl, h.bounds.1, fun i e => ⟨?_, h.bounds.2 i e⟩⟩))
      subst e
      cases h; omega
  · exact .inr (.inr (.inr (.inr ⟨_, rfl, fun n e => (by cases e), fun n e => by cases e⟩)))

theorem rtok_word (w : List Char) : (rtok (.word w) = .ident ∧ NotBool w) ∨
    ∃ b : Bool, rtok (.word w) = .bool b ∧ w = if b then ['t', 'r', 'u', 'e'] else ['f', 'a', 'l', 's', 'e'] := by
  simp only [rtok]
  by_cases h1 : w = ['t', 'r', 'u', 'e']
  · exact .inr ⟨true, by simp [h1], by simp [h1]⟩
  · by_cases h2 : w = ['f', 'a', 'l', 's', 'e']
    · exact .inr ⟨false, by simp [h2], by simp [h2]⟩
    · exact .inl ⟨by simp [h1, h2], h1, h2⟩

theorem AtL.eq {s l} (h : AtL rtok (RLex fl) s l) : l = lexemeOf s := by
  obtain ⟨a, b, hx⟩ := h.ok
  unfold lexemeOf
  rw [h.tok]
  rcases hx.cases with rfl | ⟨t, rfl, ht⟩ | ⟨w, rfl⟩ | ⟨w, rfl⟩ | ⟨t, rfl, _⟩
  · rfl
  · simp only [List.mem_cons, List.not_mem_nil, or_false] at ht
    rcases ht with rfl | rfl | rfl | rfl | rfl | rfl | rfl | rfl <;> rfl
  · rcases rtok_word w with ⟨e, _⟩ | ⟨b, e, e'⟩
    · rw [e, h.ib w rfl]
    · rw [e]; simp only; rw [e']
  · rw [h.sb w rfl]; rfl
  · cases t <;> rfl

theorem rtok_inv {a l b t} (hx : RLex fl a l b) (e : rtok l = t) :
    (t ∈ [Tok.comma, .colon, .blockOpen, .blockClose, .curlyOpen, .curlyClose, .parenOpen, .parenClose] → l = .punct t) ∧
    (t = .str → ∃ s, l = .str s) ∧ (t = .ident → ∃ w, l = .word w ∧ NotBool w) ∧
    (∀ v, t = .u64 v → l = .num (.nat v) ∧ v ≤ u64Max) ∧ (∀ v, t = .i64 v → l = .num (.neg v) ∧ -(2 ^ 63) ≤ v ∧ v ≤ 0) ∧
    (∀ x, t = .f64 x → l = .num (.float x)) ∧
    (∀ x : Bool, t = .bool x → l = .word (if x then ['t', 'r', 'u', 'e'] else ['f', 'a', 'l', 's', 'e'])) := by
  subst e
  rcases hx.cases with rfl | ⟨t, rfl, ht⟩ | ⟨w, rfl⟩ | ⟨w, rfl⟩ | ⟨t, rfl, h1, h2⟩
  · simp [rtok]
  · simp only [List.mem_cons, List.not_mem_nil, or_false] at ht
    rcases ht with rfl | rfl | rfl | rfl | rfl | rfl | rfl | rfl <;> simp [rtok]
  · rcases rtok_word w with ⟨e, hn⟩ | ⟨b, e, e'⟩
    · rw [e]; refine ⟨by simp, by simp, fun _ => ⟨w, rfl, hn⟩, by simp, by simp, by simp, by simp⟩
    · rw [e]; refine ⟨by simp, by simp, by simp, by simp, by simp, by simp, fun x hx => ?_⟩
      injection hx with hx; subst hx; rw [e']
  · simp [rtok]
  · cases t with
    | nat n => simpa [rtok, Num.tok] using h1
    | neg n => simpa [rtok, Num.tok] using h2
    | float n => simp [rtok, Num.tok]

theorem rLexSound (hfl : FloatLaws fl) : LexSound (rNext fl) rtok (RLex fl) where
  next := rNext_sound hfl
  punct h e ht := (rtok_inv h e).1 ht
  str h e := (rtok_inv h e).2.1 rfl
  u64 h e := (rtok_inv h e).2.2.2.1 _ rfl
  i64 h e := (rtok_inv h e).2.2.2.2.1 _ rfl
  f64 h e := (rtok_inv h e).2.2.2.2.2.1 _ rfl
  bool h e := (rtok_inv h e).2.2.2.2.2.2 _ rfl

/-! ## Scalars, for any lexer -/

section
variable {nx : PM Unit} {tk : Lexeme → Tok} {Lx : List Char → Lexeme → List Char → Prop} (hn : LexSound nx tk Lx)
include hn

theorem NotSep.num {s : PSt} {t : Num} (h : s.tok = t.tok) : NotSep s.tok := by
  rw [h]; cases t <;> simp [NotSep, Num.tok]

omit hn in
theorem Num.tok_cases (t : Num) {s : PSt} (h : s.tok = t.tok) :
    (∃ v, t = .nat v ∧ s.tok = .u64 v) ∨ (∃ v, t = .neg v ∧ s.tok = .i64 v) ∨ ∃ v, t = .float v ∧ s.tok = .f64 v := by
  cases t <;> simp [h, Num.tok]

theorem LexSound.num {s s'} (hl : Lexed tk Lx s) {t : Num} (h : s.tok = t.tok) (e : nx s = .ok () s') :
    Lexed tk Lx s' ∧ Tr tk Lx s [.num t] s' ∧ (∀ n, t = .nat n → n ≤ u64Max) ∧ (∀ i, t = .neg i → i ≤ 0) := by
  obtain ⟨h1, h2, h3, h4, _⟩ := hn.number hl rfl rfl e
  refine ⟨h1, ?_⟩
  rcases t.tok_cases h with ⟨v, rfl, hv⟩ | ⟨v, rfl, hv⟩ | ⟨v, rfl, hv⟩
  · exact ⟨(h2 hv).2, fun n e => by cases e; exact (h2 hv).1, fun n e => by cases e⟩
  · exact ⟨(h3 hv).2.2, fun n e => (by cases e), fun n e => by cases e; exact (h3 hv).2.1⟩
  · exact ⟨h4 hv, fun n e => (by cases e), fun n e => by cases e⟩

theorem LexSound.deInt {k s v s'} (hl : Lexed tk Lx s) (e : NS.deInt nx k s = .ok v s') :
    Lexed tk Lx s' ∧ NotSep s.tok ∧ k.textual = true ∧ ∃ t i, Tr tk Lx s [.num t] s' ∧ v = .int i ∧ (∀ n, t = .nat n → n ≤ u64Max) ∧
      ((t.intVal = some i ∧ k.inRange i ∧ (k.signed = false → ∃ n, t = .nat n)) ∨
        (∃ n : Nat, t = .nat n ∧ k.signed = true ∧ 2 ^ 63 ≤ n ∧ n < 2 ^ 64 ∧ k.inRange i ∧
          i % 2 ^ (8 * k.bytes) = (n : Int) % 2 ^ (8 * k.bytes))) := by
  unfold NS.deInt at e
  by_cases hk : k.textual = false
  · rw [if_pos hk] at e; cases e
  rw [if_neg hk] at e
  have hk : k.textual = true := by simpa using hk
  have key : ∀ {t i}, s.tok = t.tok → decInt k t = some i → nx s = .ok () s' →
      Lexed tk Lx s' ∧ NotSep s.tok ∧ k.textual = true ∧ ∃ t i', Tr tk Lx s [.num t] s' ∧ Val.int i = .int i' ∧ (∀ n, t = .nat n → n ≤ u64Max) ∧
      ((t.intVal = some i' ∧ k.inRange i' ∧ (k.signed = false → ∃ n, t = .nat n)) ∨
        (∃ n : Nat, t = .nat n ∧ k.signed = true ∧ 2 ^ 63 ≤ n ∧ n < 2 ^ 64 ∧ k.inRange i' ∧
          i' % 2 ^ (8 * k.bytes) = (n : Int) % 2 ^ (8 * k.bytes))) := by
    intro t i ht hd hx
    obtain ⟨h1, h2, h3, h4⟩ := hn.num hl ht hx
    exact ⟨h1, NotSep.num hn ht, hk, t, i, h2, rfl, h3, (decInt_iff hk h3 h4 i).1 hd⟩
  by_cases hs : k.signed = true
  · rw [if_pos hs] at e
    obtain ⟨a, s1, e1, e⟩ := M.bind_eq_ok.1 e
    obtain ⟨_, s2, e2, e⟩ := M.bind_eq_ok.1 e
    cases e
    rcases i64Range_spec k hs s with ⟨t, h1, h2⟩ | ⟨h1, e, h2⟩
    · cases hd : decInt k t with
      | none => rw [hd] at h2; obtain ⟨e, he⟩ := h2; rw [he] at e1; cases e1
      | some i =>
        rw [hd] at h2; obtain ⟨v, hv, rfl⟩ := h2
        rw [hv] at e1; cases e1
        exact key h1 hd e2
    · rw [h2] at e1; cases e1
  · rw [if_neg hs] at e
    have hs : k.signed = false := by simpa using hs
    obtain ⟨a, s1, e1, e⟩ := M.bind_eq_ok.1 e
    obtain ⟨_, s2, e2, e⟩ := M.bind_eq_ok.1 e
    cases e
    rcases u64Range_spec k hs s with ⟨t, h1, h2⟩ | ⟨h1, e, h2⟩
    · cases hd : decInt k t with
      | none => rw [hd] at h2; obtain ⟨e, he⟩ := h2; rw [he] at e1; cases e1
      | some i =>
        rw [hd] at h2; obtain ⟨v, hv, rfl⟩ := h2
        rw [hv] at e1; cases e1
        exact key h1 hd e2
    · rw [h2] at e1; cases e1

theorem LexSound.float {α : Type} {g : BitVec 64 → α} {s v s'} (hl : Lexed tk Lx s)
    (e : (asF64 fl >>= fun x => nx >>= fun _ => (Pure.pure (g x) : PM α)) s = .ok v s') :
    Lexed tk Lx s' ∧ NotSep s.tok ∧ ∃ t, Tr tk Lx s [.num t] s' ∧ v = g (t.asF64 fl) := by
  obtain ⟨a, s1, e1, e⟩ := M.bind_eq_ok.1 e
  obtain ⟨_, s2, e2, e⟩ := M.bind_eq_ok.1 e
  cases e
  rcases asF64_spec (fl := fl) s with ⟨t, h1, h2⟩ | ⟨h1, e, h2⟩
  · rw [h2] at e1; cases e1
    obtain ⟨h3, h4, _⟩ := hn.num hl h1 e2
    exact ⟨h3, NotSep.num hn h1, t, h4, by cases t <;> rfl⟩
  · rw [h2] at e1; cases e1

/-! ## Durations -/

omit hn in
theorem u64Range_inv {m s v s'} (e : u64Range m s = .ok v s') : s.tok = .u64 v ∧ v ≤ m ∧ s' = s := by
  replace e : ((match s.tok with
    | .u64 v => if v > m then errRange (showNat v ++ '>' :: showNat m) else Pure.pure v
    | _ => errToken "unsigned integer") : PM Nat) s = .ok v s' := e
  cases ht : s.tok with
  | u64 w =>
    rw [ht] at e
    simp only at e
    by_cases h : w > m
    · rw [if_pos h] at e; cases e
    · rw [if_neg h] at e; cases e; exact ⟨rfl, by omega, rfl⟩
  | _ => rw [ht] at e; cases e

/-- The members of durations: `inl` is seconds, `inr` is nanoseconds. -/
def durLex : Nat ⊕ Nat → List Lexeme
  | .inl n => [.str ['s', 'e', 'c', 's'], .punct .colon, .num (.nat n)]
  | .inr n => [.str ['n', 'a', 'n', 'o', 's'], .punct .colon, .num (.nat n)]

def durStep (acc : Option Nat × Option Nat) : Nat ⊕ Nat → Option Nat × Option Nat
  | .inl n => (some n, acc.2)
  | .inr n => (acc.1, some n)

def durFree (acc : Option Nat × Option Nat) : Nat ⊕ Nat → Prop
  | .inl n => acc.1 = none ∧ n ≤ u64Max
  | .inr _ => acc.2 = none

theorem LexSound.durNum {m : Nat} {s s' : PSt} {v : Nat} {acc : Nat → Option Nat × Option Nat} {r} (hl : Lexed tk Lx s)
    (e : (colon nx >>= fun _ => u64Range m >>= fun v => nx >>= fun _ => (Pure.pure (acc v) : PM _)) s = .ok r s') :
    ∃ v, r = acc v ∧ v ≤ m ∧ Lexed tk Lx s' ∧ Tr tk Lx s [.punct .colon, .num (.nat v)] s' := by
  obtain ⟨_, s1, e1, e⟩ := M.bind_eq_ok.1 e
  obtain ⟨v, s2, e2, e⟩ := M.bind_eq_ok.1 e
  obtain ⟨_, s3, e3, e⟩ := M.bind_eq_ok.1 e
  cases e
  obtain ⟨_, l1, t1⟩ := hn.expect hl e1 (by simp)
  obtain ⟨h1, h2, rfl⟩ := u64Range_inv e2
  obtain ⟨l3, t3, _⟩ := hn.num l1 (t := .nat v) h1 e3
  exact ⟨v, rfl, h2, l3, t1.append t3⟩

theorem LexSound.durItem {acc s acc' s'} (hl : Lexed tk Lx s) (e : NS.durItem nx acc s = .ok acc' s') :
    Lexed tk Lx s' ∧ ∃ b sep, durFree acc b ∧ Tr tk Lx s (durLex b ++ sep) s' ∧ acc' = durStep acc b ∧
        (sep = [.punct .comma] ∨ (sep = [] ∧ s'.tok = .curlyClose)) := by
  obtain ⟨key, s1, e1, e⟩ := M.bind_eq_ok.1 e
  obtain ⟨r, s2, e2, e⟩ := M.bind_eq_ok.1 e
  obtain ⟨_, s3, e3, e⟩ := M.bind_eq_ok.1 e
  cases e
  obtain ⟨_, l1, t1⟩ := hn.deStr hl e1
  have fin : ∀ {b}, durFree acc b → Lexed tk Lx s2 → Tr tk Lx s (durLex b) s2 → acc' = durStep acc b →
      Lexed tk Lx s' ∧ ∃ b sep, durFree acc b ∧ Tr tk Lx s (durLex b ++ sep) s' ∧ acc' = durStep acc b ∧
        (sep = [.punct .comma] ∨ (sep = [] ∧ s'.tok = .curlyClose)) := by
    intro b hf l2 t2 hb
    obtain ⟨l3, sep, t3, h3⟩ := hn.sep l2 e3 (by decide)
    refine ⟨l3, b, sep, hf, t2.append t3, hb, ?_⟩
    rcases h3 with ⟨_, h3⟩ | ⟨h3, h4, rfl⟩
    · exact .inl h3
    · exact .inr ⟨h3, h4⟩
  unfold durValue at e2
  by_cases hk : key = ['s', 'e', 'c', 's']
  · rw [if_pos hk] at e2
    cases ha : acc.1 with
    | some _ => rw [if_pos (by simp [ha])] at e2; cases e2
    | none =>
      rw [if_neg (by simp [ha])] at e2
      obtain ⟨v, rfl, hv, l2, t2⟩ := hn.durNum (acc := fun v => (some v, acc.2)) (v := 0) l1 e2
      subst hk
      exact fin (b := .inl v) ⟨ha, hv⟩ l2 (t1.append t2) rfl
  · rw [if_neg hk] at e2
    by_cases hk : key = ['n', 'a', 'n', 'o', 's']
    · rw [if_pos hk] at e2
      cases ha : acc.2 with
      | some _ => rw [if_pos (by simp [ha])] at e2; cases e2
      | none =>
        rw [if_neg (by simp [ha])] at e2
        obtain ⟨v, rfl, hv, l2, t2⟩ := hn.durNum (acc := fun v => (acc.1, some v)) (v := 0) l1 e2
        subst hk
        exact fin (b := .inr v) ha l2 (t1.append t2) rfl
    · rw [if_neg hk] at e2; cases e2

omit hn in
/-- There are at most two members, of different kinds. -/
theorem durSteps {bs : List (Nat ⊕ Nat)} (h : AllSteps durFree durStep (none, none) bs) :
    bs = [] ∨ (∃ a, bs = [.inl a] ∧ a ≤ u64Max) ∨ (∃ a, bs = [.inr a]) ∨ (∃ a b, bs = [.inl a, .inr b] ∧ a ≤ u64Max) ∨
      ∃ a b, bs = [.inr b, .inl a] ∧ a ≤ u64Max := by
  match bs with
  | [] => simp
  | [.inl a] => simpa [AllSteps, durFree, durStep] using h
  | [.inr a] => simp
  | .inl a :: .inl b :: bs => simp [AllSteps, durFree, durStep] at h
  | .inr a :: .inr b :: bs => simp [AllSteps, durFree, durStep] at h
  | [.inl a, .inr b] => simpa [AllSteps, durFree, durStep] using h
  | [.inr a, .inl b] => simpa [AllSteps, durFree, durStep] using h
  | .inl a :: .inr b :: c :: bs => cases c <;> simp [AllSteps, durFree, durStep] at h
  | .inr a :: .inl b :: c :: bs => cases c <;> simp [AllSteps, durFree, durStep] at h

omit hn in
theorem durNewP_inv {s n st v s'} (e : durNewP s n st = .ok v s') (hn : n ≤ 1000000000) (hs : s ≤ u64Max) :
    s + n / 1000000000 ≤ u64Max ∧ v = .dur (s + n / 1000000000) (n % 1000000000) ∧ s' = st := by
  unfold durNewP at e
  by_cases h : n < 1000000000
  · rw [if_pos h] at e; cases e
    rw [Nat.div_eq_of_lt h, Nat.mod_eq_of_lt h]
    exact ⟨hs, rfl, rfl⟩
  · rw [if_neg h] at e
    by_cases h' : s + n / 1000000000 ≤ u64Max
    · rw [if_pos h'] at e; cases e; exact ⟨h', rfl, rfl⟩
    · rw [if_neg h'] at e; cases e

theorem LexSound.deDur {n s v s'} (hl : Lexed tk Lx s) (e : NS.deDur nx n s = .ok v s') :
    s.tok = .curlyOpen ∧ Lexed tk Lx s' ∧ ∃ (bs : List (Nat ⊕ Nat)) (tr : Bool) (a b : Nat),
      (bs = [.inl a, .inr b] ∨ bs = [.inr b, .inl a] ∨ (bs = [.inl a] ∧ b = 0)) ∧ b ≤ 1000000000 ∧
      a + b / 1000000000 ≤ u64Max ∧ v = .dur (a + b / 1000000000) (b % 1000000000) ∧
      Tr tk Lx s (.punct .curlyOpen :: (commaLexemes tr (bs.map durLex) ++ [.punct .curlyClose])) s' := by
  unfold NS.deDur at e
  obtain ⟨_, s1, e1, e⟩ := M.bind_eq_ok.1 e
  obtain ⟨acc, s2, e2, e⟩ := M.bind_eq_ok.1 e
  obtain ⟨_, s3, e3, e⟩ := M.bind_eq_ok.1 e
  obtain ⟨h0, l1, t1⟩ := hn.expect hl e1 (by simp)
  obtain ⟨l2, _, bs, tr, hbs, t2, rfl, _⟩ := trNot_inv (R := durFree) (step := durStep) (lx := durLex)
    (fun acc s acc' s' hl _ e => hn.durItem hl e) n l1 e2
  obtain ⟨_, l3, t3⟩ := hn.expect l2 e3 (by simp)
  have ht : Tr tk Lx s (.punct .curlyOpen :: (commaLexemes tr (bs.map durLex) ++ [.punct .curlyClose])) s3 := by
    simpa using t1.append (t2.append t3)
  have fin : ∀ {a b}, (bs = [.inl a, .inr b] ∨ bs = [.inr b, .inl a] ∨ (bs = [.inl a] ∧ b = 0)) → a ≤ u64Max →
      (if b > 1000000000 then errRange "Duration nanos must be at most 1,000,000,000".toList else durNewP a b : PM Val) s3 = .ok v s' →
      s.tok = .curlyOpen ∧ Lexed tk Lx s' ∧ ∃ (bs : List (Nat ⊕ Nat)) (tr : Bool) (a b : Nat),
      (bs = [.inl a, .inr b] ∨ bs = [.inr b, .inl a] ∨ (bs = [.inl a] ∧ b = 0)) ∧ b ≤ 1000000000 ∧
      a + b / 1000000000 ≤ u64Max ∧ v = .dur (a + b / 1000000000) (b % 1000000000) ∧
      Tr tk Lx s (.punct .curlyOpen :: (commaLexemes tr (bs.map durLex) ++ [.punct .curlyClose])) s' := by
    intro a b hb ha e
    by_cases hg : b > 1000000000
    · rw [if_pos hg] at e; cases e
    · rw [if_neg hg] at e
      obtain ⟨g1, g2, rfl⟩ := durNewP_inv e (by omega) ha
      exact ⟨h0, l3, bs, tr, a, b, hb, by omega, g1, g2, ht⟩
  rcases durSteps hbs with rfl | ⟨a, rfl, ha⟩ | ⟨a, rfl⟩ | ⟨a, b, rfl, ha⟩ | ⟨a, b, rfl, ha⟩
  · cases e
  · exact fin (a := a) (b := 0) (.inr (.inr ⟨rfl, rfl⟩)) ha e
  · cases e
  · exact fin (a := a) (b := b) (.inl rfl) ha e
  · exact fin (a := a) (b := b) (.inr (.inl rfl)) ha e

end
end NS
