import Verif.Model.Lex
import Verif.Lemmas.Monad
/-! Lemmas about the shared lexical machinery. -/
namespace NS

@[simp] theorem Cur.next_txt (k) (c : Cur) : (c.next k).txt = c.txt.tail := by
  obtain ⟨t, l, co⟩ := c
  match t with
  | [] => rfl
  | [_] => rfl
  | _ :: x :: t => simp only [Cur.next]; split <;> rfl

theorem Cur.ch_cons {c : Cur} {x t} (h : c.txt = x :: t) : c.ch = x := by simp [Cur.ch, h]
theorem Cur.ch_nil {c : Cur} (h : c.txt = []) : c.ch = '\x00' := by simp [Cur.ch, h]
theorem Cur.ch_eq (c : Cur) : c.ch = c.txt.headD '\x00' := rfl

theorem Cur.spanAux_fst (k p) (t : List Char) (l c : Nat) :
    (Cur.spanAux k p t l c).1 = t.takeWhile p := by
  induction t generalizing l c with
  | nil => rfl
  | cons x t ih =>
    simp only [Cur.spanAux, List.takeWhile]
    cases p x <;> simp [ih]

theorem Cur.spanAux_txt (k p) (t : List Char) (l c : Nat) :
    (Cur.spanAux k p t l c).2.txt = t.dropWhile p := by
  induction t generalizing l c with
  | nil => rfl
  | cons x t ih =>
    simp only [Cur.spanAux, List.dropWhile]
    cases p x <;> simp [ih]

@[simp] theorem Cur.span_fst (k p) (c : Cur) : (c.span k p).1 = c.txt.takeWhile p :=
  Cur.spanAux_fst ..
@[simp] theorem Cur.span_txt (k p) (c : Cur) : (c.span k p).2.txt = c.txt.dropWhile p :=
  Cur.spanAux_txt ..

theorem Cur.span_step {k p} {c : Cur} {x t} (h : c.txt = x :: t) (hp : p x = true) :
    (c.span k p).2 = ((c.next k).span k p).2 := by
  obtain ⟨tx, l, co⟩ := c
  simp only at h
  subst h
  have : ((Cur.mk (x :: t) l co).next k) = ⟨t, ((Cur.mk (x :: t) l co).next k).line, ((Cur.mk (x :: t) l co).next k).col⟩ := by
    have := Cur.next_txt k ⟨x :: t, l, co⟩
    simp only [List.tail_cons] at this
    generalize (Cur.mk (x :: t) l co).next k = n at *
    obtain ⟨a, b, c⟩ := n
    simp_all
  rw [this]
  simp [Cur.span, Cur.spanAux, hp]

theorem Cur.span_stop {k p} {c : Cur} (h : ∀ x t, c.txt = x :: t → p x = false) :
    c.span k p = ([], c) := by
  obtain ⟨tx, l, co⟩ := c
  cases tx with
  | nil => rfl
  | cons x t => simp [Cur.span, Cur.spanAux, h x t rfl]

theorem isDig_cases {d : Char} (h : isDig d = true) :
    d = '0' ∨ d = '1' ∨ d = '2' ∨ d = '3' ∨ d = '4' ∨ d = '5' ∨ d = '6' ∨ d = '7' ∨ d = '8' ∨ d = '9' := by
  simp only [isDig, Bool.and_eq_true, decide_eq_true_eq, Char.le_def, UInt32.le_iff_toNat_le] at h
  have e : d = Char.ofNat d.toNat := (Char.ofNat_toNat d).symm
  have h1 : 48 ≤ d.toNat := h.1
  have h2 : d.toNat ≤ 57 := h.2
  have : d.toNat = 48 ∨ d.toNat = 49 ∨ d.toNat = 50 ∨ d.toNat = 51 ∨ d.toNat = 52 ∨ d.toNat = 53 ∨
    d.toNat = 54 ∨ d.toNat = 55 ∨ d.toNat = 56 ∨ d.toNat = 57 := by omega
  rcases this with h | h | h | h | h | h | h | h | h | h <;> rw [e, h] <;> decide

/-- The current character is not a letter, digit, sign, point...: `p` is false at the head (and
at the end). -/
def StopAt (p : Char → Bool) (t : List Char) : Prop := ∀ x r, t = x :: r → p x = false

theorem StopAt.nil {p} : StopAt p [] := by intro x r h; cases h
theorem StopAt.cons {p x r} (h : p x = false) : StopAt p (x :: r) := by
  intro _ _ e; injection e with e1; exact e1 ▸ h

theorem takeWhile_append_stop {p : Char → Bool} {a b : List Char} (ha : ∀ x ∈ a, p x = true)
    (hb : StopAt p b) : (a ++ b).takeWhile p = a ∧ (a ++ b).dropWhile p = b := by
  induction a with
  | nil =>
    cases b with
    | nil => simp
    | cons x b => simp [hb x b rfl]
  | cons x a ih =>
    have := ih fun y hy => ha y (List.mem_cons_of_mem _ hy)
    simp [ha x (List.mem_cons_self ..), this]

theorem span_run {k p} {c : Cur} {a b : List Char} (h : c.txt = a ++ b) (ha : ∀ x ∈ a, p x = true)
    (hb : StopAt p b) : (c.span k p).1 = a ∧ (c.span k p).2.txt = b := by
  rw [Cur.span_fst, Cur.span_txt, h]
  exact takeWhile_append_stop ha hb

/-! ## Numbers -/

theorem showNat_dig {n : Nat} {c : Char} (h : c ∈ showNat n) : isDig c = true := by
  have := Nat.isDigit_of_mem_toDigits (b := 10) (by decide) (by decide) h
  simp only [Char.isDigit, Bool.and_eq_true, decide_eq_true_eq, ge_iff_le] at this
  simp only [isDig, Bool.and_eq_true, decide_eq_true_eq, Char.le_def]
  exact this

theorem showNat_ne_nil (n : Nat) : showNat n ≠ [] := by
  intro h
  have := congrArg List.length h
  have h2 := Nat.length_toDigits_pos (b := 10) (n := n)
  simp only [showNat] at this
  simp only [List.length_nil] at this
  omega

theorem digitsVal_eq (ds : List Char) (a : Nat) :
    ds.foldl (fun a d => 10 * a + (d.toNat - 48)) a = Nat.ofDigitChars 10 ds a := by
  induction ds generalizing a with
  | nil => rfl
  | cons d ds ih => simp [Nat.ofDigitChars]

theorem digitsVal_showNat (n : Nat) : digitsVal (showNat n) = n := by
  rw [digitsVal, digitsVal_eq]
  exact Nat.ofDigitChars_toDigits (by decide) (by decide)

/-- Characters that may continue a number. -/
def isNumCont (c : Char) : Bool := isDig c || c == '.' || c == 'e' || c == 'E'

theorem StopAt.mono {p q : Char → Bool} {t} (h : StopAt q t) (hpq : ∀ x, p x = true → q x = true) :
    StopAt p t := by
  intro x r e
  have := h x r e
  cases hp : p x with
  | false => rfl
  | true => rw [hpq x hp] at this; cases this

theorem StopAt.ch_ne {p : Char → Bool} {t : List Char} {c : Cur} (h : StopAt p t) (hc : c.txt = t) {x : Char}
    (hx : p x = true) (h0 : x ≠ '\x00') : c.ch ≠ x := by
  intro e
  cases t with
  | nil => rw [Cur.ch_nil hc] at e; exact h0 e.symm
  | cons y r =>
    rw [Cur.ch_cons hc] at e
    have := h y r rfl
    rw [e, hx] at this
    cases this

/-- Reading a numeral `sign digits` that is not continued. -/
theorem lexNum_int {k fl} {c : Cur} {sg ds tail : List Char} (h : c.txt = sg ++ ds ++ tail)
    (hsg : sg = [] ∨ sg = ['-'] ∨ sg = ['+']) (hds : ∀ x ∈ ds, isDig x = true) (hne : sg = [] → ds ≠ [])
    (ht : StopAt isNumCont tail) :
    ∃ c', c'.txt = tail ∧
      lexNum k fl c = (if sg = ['-'] then parseI64 ds else parseU64 ds, c') := by
  have key : ∀ c1 : Cur, c1.txt = ds ++ tail →
      (c1.span k isDig).1 = ds ∧ (c1.span k isDig).2.txt = tail ∧
      (c1.span k isDig).2.ch ≠ '.' ∧ (c1.span k isDig).2.ch ≠ 'e' ∧ (c1.span k isDig).2.ch ≠ 'E' := by
    intro c1 h1
    have := span_run (k := k) h1 hds (ht.mono fun x hx => by simp [isNumCont, hx])
    refine ⟨this.1, this.2, ?_, ?_, ?_⟩ <;>
      exact ht.ch_ne this.2 (by decide) (by decide)
  rcases hsg with rfl | rfl | rfl
  · obtain ⟨d, ds', rfl⟩ := List.exists_cons_of_ne_nil (hne rfl)
    obtain ⟨k1, k2, k3, k4, k5⟩ := key c h
    have hch : ¬ (c.ch = '-' ∨ c.ch = '+') := by
      rw [Cur.ch_cons (x := d) (t := ds' ++ tail) (by simpa using h)]
      rcases isDig_cases (hds d (by simp)) with e | e | e | e | e | e | e | e | e | e <;> subst e <;> decide
    refine ⟨_, k2, ?_⟩
    simp only [lexNum, if_neg hch, if_neg k3, k4, k5, k1, or_self, if_false]
    simp
  · have h1 : (c.next k).txt = ds ++ tail := by rw [Cur.next_txt, h]; simp
    obtain ⟨k1, k2, k3, k4, k5⟩ := key _ h1
    have hch : c.ch = '-' := Cur.ch_cons (t := ds ++ tail) (by simpa using h)
    refine ⟨_, k2, ?_⟩
    simp only [lexNum, hch, true_or, if_true, if_neg k3, k4, k5, k1, or_self, if_false]
    simp
  · have h1 : (c.next k).txt = ds ++ tail := by rw [Cur.next_txt, h]; simp
    obtain ⟨k1, k2, k3, k4, k5⟩ := key _ h1
    have hch : c.ch = '+' := Cur.ch_cons (t := ds ++ tail) (by simpa using h)
    refine ⟨_, k2, ?_⟩
    simp only [lexNum, hch, or_true, if_true, if_neg k3, k4, k5, k1, or_self, if_false]
    simp

/-- The token of an integer's canonical text. -/
def intTok (i : Int) : Tok := if i < 0 then .i64 i else .u64 i.toNat

theorem lexNum_showInt {k fl} {c : Cur} {i : Int} {tail : List Char} (h : c.txt = showInt i ++ tail)
    (ht : StopAt isNumCont tail) (hlo : -(2 ^ 63 : Int) ≤ i) (hhi : i ≤ (u64Max : Int)) :
    ∃ c', c'.txt = tail ∧ lexNum k fl c = (some (intTok i), c') := by
  have hd : ∀ x ∈ showNat i.natAbs, isDig x = true := fun x hx => showNat_dig hx
  by_cases hi : i < 0
  · rw [showInt, if_pos hi] at h
    obtain ⟨c', h1, h2⟩ := lexNum_int (k := k) (fl := fl) (sg := ['-']) (ds := showNat i.natAbs) (by simpa using h)
      (by simp) hd (by simp) ht
    refine ⟨c', h1, ?_⟩
    rw [h2, if_pos rfl, parseI64, if_neg (showNat_ne_nil _), digitsVal_showNat]
    rw [if_pos (by omega), intTok, if_pos hi]
    congr 2; congr 1; omega
  · rw [showInt, if_neg hi] at h
    obtain ⟨c', h1, h2⟩ := lexNum_int (k := k) (fl := fl) (sg := []) (ds := showNat i.natAbs) (by simpa using h)
      (by simp) hd (fun _ => showNat_ne_nil _) ht
    refine ⟨c', h1, ?_⟩
    rw [h2, if_neg (by simp), parseU64, if_neg (showNat_ne_nil _), digitsVal_showNat]
    rw [if_pos (by omega), intTok, if_neg hi]
    congr 2; congr 1; omega

/-! ## Strings -/

theorem xdigits_txt (k) (n acc : Nat) (c : Cur) : (xdigits k n acc c).2.txt.length ≤ c.txt.length := by
  induction n generalizing acc c with
  | zero => simp [xdigits]
  | succ n ih =>
    simp only [xdigits]
    cases hexVal c.ch with
    | none => simp
    | some d =>
      have := ih (acc * 16 + d) (c.next k)
      simp only [Cur.next_txt, List.length_tail] at this
      show (xdigits k n (acc * 16 + d) (c.next k)).2.txt.length ≤ _
      omega

theorem hexUnescape_txt (k) (c : Cur) : (hexUnescape k c).2.txt.length ≤ c.txt.length - 1 := by
  have h1 := xdigits_txt k 4 0 (c.next k)
  simp only [Cur.next_txt, List.length_tail] at h1
  unfold hexUnescape
  generalize xdigits k 4 0 (c.next k) = r at h1
  obtain ⟨o, c1⟩ := r
  cases o with
  | none => exact h1
  | some a =>
    simp only at h1 ⊢
    cases charOfU32 a with
    | some ch => exact h1
    | none =>
      simp only
      split
      · split
        · have h2 := xdigits_txt k 4 0 ((c1.next k).next k)
          generalize xdigits k 4 0 ((c1.next k).next k) = r at h2
          simp only [Cur.next_txt, List.length_tail] at h2
          obtain ⟨o, c2⟩ := r
          cases o with
          | none => simp only at h2 ⊢; omega
          | some b => simp only at h2 ⊢; split <;> (simp only; omega)
        · simp only [Cur.next_txt, List.length_tail]; omega
      · exact h1

/-- Enough fuel for a string is its remaining text; more changes nothing. -/
theorem lexStr_fuel (k) {n m : Nat} {c : Cur} (buf : List Char) (hn : c.txt.length < n) (hm : c.txt.length < m) :
    lexStr k n c buf = lexStr k m c buf ∧ lexStr k n c buf ≠ .oof := by
  induction n generalizing m c buf with
  | zero => omega
  | succ n ih =>
    cases m with
    | zero => omega
    | succ m =>
      simp only [lexStr]
      by_cases h1 : c.ch = '"'
      · simp [h1]
      rw [if_neg h1, if_neg h1]
      have hpos : c.ch ≠ '\x00' → 0 < c.txt.length := by
        intro h
        cases e : c.txt with
        | nil => exact absurd (Cur.ch_nil e) h
        | cons _ _ => simp
      by_cases h2 : c.ch = '\\'
      · have hp := hpos (by rw [h2]; decide)
        rw [if_pos h2, if_pos h2]
        by_cases h3 : (c.next k).ch = '\x00'
        · simp [h3]
        rw [if_neg h3, if_neg h3]
        by_cases h4 : (c.next k).ch = 'u'
        · rw [if_pos h4, if_pos h4]
          have hl := hexUnescape_txt k (c.next k)
          simp only [Cur.next_txt, List.length_tail] at hl
          generalize hexUnescape k (c.next k) = r at hl
          obtain ⟨o, c2⟩ := r
          cases o with
          | none => simp
          | some ch => exact ih _ (by simp only at hl; omega) (by simp only at hl; omega)
        · rw [if_neg h4, if_neg h4]
          exact ih _ (by simp; omega) (by simp; omega)
      · rw [if_neg h2, if_neg h2]
        by_cases h3 : c.ch = '\x00'
        · simp [h3]
        · have hp := hpos h3
          rw [if_neg h3, if_neg h3]
          exact ih _ (by simp; omega) (by simp; omega)

/-- A string body `body` denotes `out`: from any position on `body ++ rest` the reader arrives at
`rest` with `out` appended to the buffer, whatever `rest` is. -/
def StrBody (k : Nat → Nat) (body out : List Char) : Prop :=
  ∀ (n : Nat) (c : Cur) (rest buf : List Char), c.txt = body ++ rest → c.txt.length < n →
    ∃ n' c', c'.txt = rest ∧ rest.length < n' ∧ lexStr k n c buf = lexStr k n' c' (buf ++ out)

theorem StrBody.nil {k} : StrBody k [] [] := by
  intro n c rest buf h hn
  exact ⟨n, c, by simpa using h, by simpa [h] using hn, by simp⟩

theorem StrBody.append {k a b x y} (h1 : StrBody k a x) (h2 : StrBody k b y) :
    StrBody k (a ++ b) (x ++ y) := by
  intro n c rest buf h hn
  obtain ⟨n1, c1, e1, l1, r1⟩ := h1 n c (b ++ rest) buf (by simpa using h) hn
  obtain ⟨n2, c2, e2, l2, r2⟩ := h2 n1 c1 rest (buf ++ x) e1 (by rw [e1]; exact l1)
  exact ⟨n2, c2, e2, l2, by rw [r1, r2, List.append_assoc]⟩

theorem StrBody.flatMap {k} {f : Char → List Char} (h : ∀ c, StrBody k (f c) [c]) (s : List Char) :
    StrBody k (s.flatMap f) s := by
  induction s with
  | nil => exact .nil
  | cons c s ih =>
    rw [List.flatMap_cons]
    exact (h c).append ih

theorem StrBody.plain {k} {c : Char} (h1 : c ≠ '"') (h2 : c ≠ '\\') (h3 : c ≠ '\x00') :
    StrBody k [c] [c] := by
  intro n cu rest buf h hn
  cases n with
  | zero => omega
  | succ n =>
    have hc : cu.ch = c := Cur.ch_cons (t := rest) (by simpa using h)
    refine ⟨n, cu.next k, by rw [Cur.next_txt, h]; rfl, ?_, ?_⟩
    · rw [h] at hn; simp at hn; omega
    · simp [lexStr, hc, h1, h2, h3]

theorem StrBody.esc {k} {c : Char} (h1 : c ≠ 'u') (h2 : c ≠ '\x00') :
    StrBody k ['\\', c] [escChar c] := by
  intro n cu rest buf h hn
  cases n with
  | zero => omega
  | succ n =>
    have hc : cu.ch = '\\' := Cur.ch_cons (t := c :: rest) (by simpa using h)
    have h' : (cu.next k).txt = c :: rest := by rw [Cur.next_txt, h]; rfl
    have hc' : (cu.next k).ch = c := Cur.ch_cons h'
    refine ⟨n, (cu.next k).next k, by rw [Cur.next_txt, h']; rfl, ?_, ?_⟩
    · rw [h] at hn; simp at hn; omega
    · have e : ('\\' : Char) ≠ '"' := by decide
      simp [lexStr, hc, hc', h1, h2, e]

/-- Four hexadecimal digits. -/
theorem xdigits_four {k} {c : Cur} {d3 d2 d1 d0 : Char} {v3 v2 v1 v0 : Nat} {rest : List Char} (acc : Nat)
    (h : c.txt = d3 :: d2 :: d1 :: d0 :: rest) (h3 : hexVal d3 = some v3) (h2 : hexVal d2 = some v2)
    (h1 : hexVal d1 = some v1) (h0 : hexVal d0 = some v0) :
    ∃ c', c'.txt = rest ∧
      xdigits k 4 acc c = (some ((((acc * 16 + v3) * 16 + v2) * 16 + v1) * 16 + v0), c') := by
  have e0 : c.ch = d3 := Cur.ch_cons h
  have t1 : (c.next k).txt = d2 :: d1 :: d0 :: rest := by rw [Cur.next_txt, h]; rfl
  have e1 : (c.next k).ch = d2 := Cur.ch_cons t1
  have t2 : ((c.next k).next k).txt = d1 :: d0 :: rest := by rw [Cur.next_txt, t1]; rfl
  have e2 := Cur.ch_cons t2
  have t3 : (((c.next k).next k).next k).txt = d0 :: rest := by rw [Cur.next_txt, t2]; rfl
  have e3 := Cur.ch_cons t3
  refine ⟨(((c.next k).next k).next k).next k, by rw [Cur.next_txt, t3]; rfl, ?_⟩
  simp [xdigits, e0, e1, e2, e3, h3, h2, h1, h0]

/-- `\uXXXX` of a code unit that is a scalar. -/
theorem StrBody.hex {k} {d3 d2 d1 d0 : Char} {v3 v2 v1 v0 : Nat} {ch : Char}
    (h3 : hexVal d3 = some v3) (h2 : hexVal d2 = some v2)
    (h1 : hexVal d1 = some v1) (h0 : hexVal d0 = some v0)
    (hch : charOfU32 (((v3 * 16 + v2) * 16 + v1) * 16 + v0) = some ch) :
    StrBody k ['\\', 'u', d3, d2, d1, d0] [ch] := by
  intro n cu rest buf h hn
  cases n with
  | zero => omega
  | succ n =>
    have hc : cu.ch = '\\' := Cur.ch_cons (t := 'u' :: d3 :: d2 :: d1 :: d0 :: rest) (by simpa using h)
    have h' : (cu.next k).txt = 'u' :: d3 :: d2 :: d1 :: d0 :: rest := by rw [Cur.next_txt, h]; rfl
    have hc' : (cu.next k).ch = 'u' := Cur.ch_cons h'
    have h'' : ((cu.next k).next k).txt = d3 :: d2 :: d1 :: d0 :: rest := by rw [Cur.next_txt, h']; rfl
    obtain ⟨c', e', x'⟩ := xdigits_four (k := k) 0 h'' h3 h2 h1 h0
    simp only [Nat.zero_mul, Nat.zero_add] at x'
    refine ⟨n, c', e', ?_, ?_⟩
    · rw [h] at hn; simp at hn; omega
    · have e : ('\\' : Char) ≠ '"' := by decide
      have e2 : ('u' : Char) ≠ '\x00' := by decide
      have hu : hexUnescape k (cu.next k) = (some ch, c') := by
        simp [hexUnescape, x', hch]
      simp [lexStr, hc, hc', e, e2, hu]

end NS
