import Verif.Lemmas.Lex
import Verif.Spec.Text
/-! Lexer lemmas shared by JSON and RON, for arbitrary spellings. -/
namespace NS

/-- From any state whose remaining text is `txt`, `nx` reads the token `t` and leaves `rest`. -/
def TokAt (nx : PM Unit) (txt : List Char) (t : Tok) (rest : List Char)
    (sb ib : Option (List Char)) : Prop :=
  ∀ st : PSt, st.cur.txt = txt → ∃ c : Cur, c.txt = rest ∧
    nx st = .ok () { cur := c, tok := t, strbuf := sb.getD st.strbuf, identbuf := ib.getD st.identbuf }

theorem digits_isDig {s : List Char} (h : Digits s) : ∀ c ∈ s, isDig c = true := by
  intro c hc
  obtain ⟨h1, h2⟩ := h c hc
  simp [isDig, h1, h2]

/-- Reading a float literal; the exponent may lack its digits. -/
theorem lexNum_float' {k fl} {c : Cur} {sg ip fr ex s tail : List Char}
    (e : s = sg ++ ip ++ fr ++ ex) (hsg : sg = [] ∨ sg = ['-'] ∨ sg = ['+'])
    (hip : sg ++ ip ≠ []) (hipd : Digits ip) (hfr : fr = [] ∨ ∃ f, fr = '.' :: f ∧ Digits f)
    (hex : ex = [] ∨ ∃ e m y, ex = e :: (m ++ y) ∧ (e = 'e' ∨ e = 'E') ∧ (m = [] ∨ m = ['-']) ∧
        (y ≠ [] ∨ tail.head? ≠ some '-') ∧ Digits y) (hor : fr ≠ [] ∨ ex ≠ [])
    (h : c.txt = s ++ tail) (ht : StopAt isNumCont tail) :
    ∃ c', c'.txt = tail ∧ lexNum k fl c = ((fl.parse64 s).map Tok.f64, c') := by
  -- sign
  have hA : ∃ a : List Char × Cur, (if c.ch = '-' ∨ c.ch = '+' then ([c.ch], c.next k) else ([], c)) = a ∧
      a.1 = sg ∧ a.2.txt = ip ++ (fr ++ (ex ++ tail)) := by
    rcases hsg with rfl | rfl | rfl
    · obtain ⟨d, ds, e2⟩ := List.exists_cons_of_ne_nil (by simpa using hip : ip ≠ [])
      have hch : ¬ (c.ch = '-' ∨ c.ch = '+') := by
        rw [Cur.ch_cons (x := d) (t := ds ++ (fr ++ (ex ++ tail))) (by rw [h, e, e2]; simp)]
        have := digits_isDig hipd d (by rw [e2]; simp)
        rcases isDig_cases this with e | e | e | e | e | e | e | e | e | e <;> subst e <;> decide
      exact ⟨_, rfl, by rw [if_neg hch], by rw [if_neg hch]; simp [h, e]⟩
    · have hch : c.ch = '-' := Cur.ch_cons (t := ip ++ (fr ++ (ex ++ tail))) (by rw [h, e]; simp)
      refine ⟨_, rfl, by simp [hch], by simp [hch, h, e]⟩
    · have hch : c.ch = '+' := Cur.ch_cons (t := ip ++ (fr ++ (ex ++ tail))) (by rw [h, e]; simp)
      refine ⟨_, rfl, by simp [hch], by simp [hch, h, e]⟩
  obtain ⟨a, ea, ha1, ha2⟩ := hA
  have hstop1 : StopAt isDig (fr ++ (ex ++ tail)) := by
    rcases hfr with rfl | ⟨f, rfl, _⟩
    · rcases hex with rfl | ⟨e', m, x, rfl, he', _, _, _⟩
      · exact ht.mono fun y hy => by simp [isNumCont, hy]
      · exact StopAt.cons (by first | (rcases he' with rfl | rfl <;> decide) | decide)
    · exact StopAt.cons (by first | (rcases he' with rfl | rfl <;> decide) | decide)
  obtain ⟨hb1, hb2⟩ := span_run (k := k) ha2 (digits_isDig hipd) hstop1
  -- fraction
  have hD : ∃ d : List Char × Cur, (if (a.2.span k isDig).2.ch = '.' then
      ('.' :: (((a.2.span k isDig).2.next k).span k isDig).1, (((a.2.span k isDig).2.next k).span k isDig).2)
      else ([], (a.2.span k isDig).2)) = d ∧ d.1 = fr ∧ d.2.txt = ex ++ tail := by
    rcases hfr with rfl | ⟨f, rfl, hfd⟩
    · have : (a.2.span k isDig).2.ch ≠ '.' := by
        rcases hex with rfl | ⟨e', m, x, rfl, he', _, _, _⟩
        · exact ht.ch_ne (by simpa using hb2) (by decide) (by decide)
        · rw [Cur.ch_cons (by simpa using hb2)]; rcases he' with rfl | rfl <;> decide
      exact ⟨_, rfl, by rw [if_neg this], by rw [if_neg this]; simpa using hb2⟩
    · have hdot : (a.2.span k isDig).2.ch = '.' := Cur.ch_cons (by simpa using hb2)
      have hn : ((a.2.span k isDig).2.next k).txt = f ++ (ex ++ tail) := by rw [Cur.next_txt, hb2]; simp
      have hst : StopAt isDig (ex ++ tail) := by
        rcases hex with rfl | ⟨e', m, x, rfl, he', _, _, _⟩
        · exact ht.mono fun y hy => by simp [isNumCont, hy]
        · exact StopAt.cons (by first | (rcases he' with rfl | rfl <;> decide) | decide)
      obtain ⟨q1, q2⟩ := span_run (k := k) hn (digits_isDig hfd) hst
      exact ⟨_, rfl, by rw [if_pos hdot]; simp only; rw [q1], by rw [if_pos hdot]; exact q2⟩
  obtain ⟨d, ed, hd1, hd2⟩ := hD
  have hE : ∃ e : List Char × Cur, (if d.2.ch = 'e' ∨ d.2.ch = 'E' then
      (d.2.ch :: ((if (d.2.next k).ch = '-' then ((['-'], (d.2.next k).next k) : List Char × Cur) else ([], d.2.next k)).1 ++
        ((if (d.2.next k).ch = '-' then ((['-'], (d.2.next k).next k) : List Char × Cur) else ([], d.2.next k)).2.span k isDig).1),
        ((if (d.2.next k).ch = '-' then ((['-'], (d.2.next k).next k) : List Char × Cur) else ([], d.2.next k)).2.span k isDig).2)
      else ([], d.2)) = e ∧ e.1 = ex ∧ e.2.txt = tail := by
    rcases hex with rfl | ⟨e', m, x, rfl, he', hm, hx, hxd⟩
    · have h1 : ¬ (d.2.ch = 'e' ∨ d.2.ch = 'E') := by
        rintro (h | h)
        · exact ht.ch_ne (by simpa using hd2) (by decide) (by decide) h
        · exact ht.ch_ne (by simpa using hd2) (by decide) (by decide) h
      exact ⟨_, rfl, by rw [if_neg h1], by rw [if_neg h1]; simpa using hd2⟩
    · have he : d.2.ch = e' := Cur.ch_cons (by simpa using hd2)
      have hn : (d.2.next k).txt = m ++ (x ++ tail) := by rw [Cur.next_txt, hd2]; simp
      have hst : StopAt isDig tail := ht.mono fun y hy => by simp [isNumCont, hy]
      refine ⟨_, rfl, ?_⟩
      rw [if_pos (by rw [he]; exact he')]
      rcases hm with rfl | rfl
      · have hne : (d.2.next k).ch ≠ '-' := by
          cases hxe : x with
          | nil =>
            rcases hx with hx | hx
            · exact absurd hxe hx
            · cases htl : tail with
              | nil => rw [Cur.ch_nil (by rw [hn, hxe, htl]; rfl)]; decide
              | cons z zs =>
                rw [Cur.ch_cons (x := z) (t := zs) (by rw [hn, hxe, htl]; rfl)]
                rintro rfl
                rw [htl] at hx
                exact hx rfl
          | cons y ys =>
            rw [Cur.ch_cons (x := y) (t := ys ++ tail) (by rw [hn, hxe]; rfl)]
            have := digits_isDig hxd y (by rw [hxe]; simp)
            rcases isDig_cases this with e | e | e | e | e | e | e | e | e | e <;> subst e <;> decide
        obtain ⟨q1, q2⟩ := span_run (k := k) (c := d.2.next k) (a := x) (b := tail) (by simpa using hn) (digits_isDig hxd) hst
        rw [if_neg hne]
        simp only [q1, q2, he]
        simp
      · have hne : (d.2.next k).ch = '-' := Cur.ch_cons (by simpa using hn)
        obtain ⟨q1, q2⟩ := span_run (k := k) (c := (d.2.next k).next k) (a := x) (b := tail)
          (by rw [Cur.next_txt, hn]; simp) (digits_isDig hxd) hst
        rw [if_pos hne]
        simp only [q1, q2, he]
        simp
  obtain ⟨ee, eee, he1, he2⟩ := hE
  refine ⟨ee.2, he2, ?_⟩
  unfold lexNum
  simp only [ea, ed, eee, hb1, ha1, hd1, he1]
  rw [if_pos hor, ← e]

/-- Reading a float literal. -/
theorem lexNum_float {k fl} {c : Cur} {sg ip fr ex s tail : List Char}
    (e : s = sg ++ ip ++ fr ++ ex) (hsg : sg = [] ∨ sg = ['-'] ∨ sg = ['+'])
    (hip : sg ++ ip ≠ []) (hipd : Digits ip) (hfr : fr = [] ∨ ∃ f, fr = '.' :: f ∧ Digits f)
    (hex : ex = [] ∨ ∃ e m y, ex = e :: (m ++ y) ∧ (e = 'e' ∨ e = 'E') ∧ (m = [] ∨ m = ['-']) ∧ y ≠ [] ∧
        Digits y) (hor : fr ≠ [] ∨ ex ≠ [])
    (h : c.txt = s ++ tail) (ht : StopAt isNumCont tail) :
    ∃ c', c'.txt = tail ∧ lexNum k fl c = ((fl.parse64 s).map Tok.f64, c') :=
  lexNum_float' e hsg hip hipd hfr
    (hex.imp_right fun ⟨e, m, y, h1, h2, h3, h4, h5⟩ => ⟨e, m, y, h1, h2, h3, .inl h4, h5⟩) hor h ht

theorem hexVal_digitChar {v : Nat} (h : v < 16) : hexVal v.digitChar = some v := by
  have : ∀ v : Fin 16, hexVal v.val.digitChar = some v.val := by decide
  exact this ⟨v, h⟩

theorem charOfU32_toNat (c : Char) : charOfU32 c.toNat = some c := by
  have : c.toNat.isValidChar := c.valid
  simp [charOfU32, this, Char.ofNat_toNat]


theorem HexDig.hexVal {d : Char} {v : Nat} (h : HexDig d v) : hexVal d = some v := by
  have hle : ∀ a b : Char, a ≤ b ↔ a.toNat ≤ b.toNat := fun a b => Iff.rfl
  unfold NS.hexVal
  simp only [hle, Char.reduceToNat]
  rcases h with ⟨h1, h2⟩ | ⟨h1, h2, h3 | h3⟩
  · rw [if_pos (by omega)]; congr 1; omega
  · rw [if_neg (by omega), if_pos (by omega)]; congr 1; omega
  · rw [if_neg (by omega), if_neg (by omega), if_pos (by omega)]; congr 1; omega

theorem hexVal_iff {d : Char} {v : Nat} : hexVal d = some v ↔ HexDig d v := by
  refine ⟨fun h => ?_, HexDig.hexVal⟩
  have hle : ∀ a b : Char, a ≤ b ↔ a.toNat ≤ b.toNat := fun a b => Iff.rfl
  unfold NS.hexVal at h
  simp only [hle, Char.reduceToNat] at h
  unfold HexDig
  split at h
  · injection h with h; omega
  · split at h
    · injection h with h; omega
    · split at h
      · injection h with h; omega
      · cases h

theorem Hex4.lt {s v} (h : Hex4 s v) : v < 65536 := by
  obtain ⟨d3, d2, d1, d0, v3, v2, v1, v0, -, h3, h2, h1, h0, rfl⟩ := h
  unfold HexDig at *
  omega

theorem escChar_eq (c : Char) : escChar c = escMeaning c := by
  unfold escMeaning
  split <;> first | decide | (unfold escChar; simp_all)

theorem shift_or_pair {a b : Nat} (hb : b < 1024) : (a <<< 10) ||| b = a * 1024 + b := by
  rw [Nat.shiftLeft_eq, show (2 : Nat) ^ 10 = 1024 from rfl, Nat.mul_comm a 1024]
  have := Nat.two_pow_add_eq_or_of_lt (i := 10) (b := b) (by simpa using hb) a
  rw [show (2 : Nat) ^ 10 = 1024 from rfl] at this
  exact this.symm

/-- A surrogate pair of escapes. -/
theorem StrBody.pair {k} {h l : List Char} {hi lo : Nat} {ch : Char} (hh : Hex4 h hi) (hl : Hex4 l lo)
    (h1 : 0xD800 ≤ hi) (h2 : hi < 0xDC00) (h3 : 0xDC00 ≤ lo) (h4 : lo < 0xE000)
    (hch : ch.toNat = 0x10000 + (hi - 0xD800) * 0x400 + (lo - 0xDC00)) :
    StrBody k ('\\' :: 'u' :: (h ++ '\\' :: 'u' :: l)) [ch] := by
  obtain ⟨d3, d2, d1, d0, v3, v2, v1, v0, rfl, a3, a2, a1, a0, ev⟩ := hh
  obtain ⟨f3, f2, f1, f0, w3, w2, w1, w0, rfl, b3, b2, b1, b0, ew⟩ := hl
  intro n cu rest buf h hn
  cases n with
  | zero => omega
  | succ n =>
    have hc : cu.ch = '\\' := Cur.ch_cons (t := 'u' :: d3 :: d2 :: d1 :: d0 :: '\\' :: 'u' :: f3 :: f2 :: f1 :: f0 :: rest) (by simpa using h)
    have h' : (cu.next k).txt = 'u' :: d3 :: d2 :: d1 :: d0 :: '\\' :: 'u' :: f3 :: f2 :: f1 :: f0 :: rest := by rw [Cur.next_txt, h]; rfl
    have hc' : (cu.next k).ch = 'u' := Cur.ch_cons h'
    have h'' : ((cu.next k).next k).txt = d3 :: d2 :: d1 :: d0 :: '\\' :: 'u' :: f3 :: f2 :: f1 :: f0 :: rest := by rw [Cur.next_txt, h']; rfl
    obtain ⟨c', e', x'⟩ := xdigits_four (k := k) 0 h'' a3.hexVal a2.hexVal a1.hexVal a0.hexVal
    simp only [Nat.zero_mul, Nat.zero_add] at x'
    have e1 : (c'.next k).txt = 'u' :: f3 :: f2 :: f1 :: f0 :: rest := by rw [Cur.next_txt, e']; rfl
    have e2 : ((c'.next k).next k).txt = f3 :: f2 :: f1 :: f0 :: rest := by rw [Cur.next_txt, e1]; rfl
    obtain ⟨c2, e3, y'⟩ := xdigits_four (k := k) 0 e2 b3.hexVal b2.hexVal b1.hexVal b0.hexVal
    simp only [Nat.zero_mul, Nat.zero_add] at y'
    refine ⟨n, c2, e3, ?_, ?_⟩
    · rw [h] at hn; simp at hn; omega
    · have e : ('\\' : Char) ≠ '"' := by decide
      have e2 : ('u' : Char) ≠ '\x00' := by decide
      have hu : hexUnescape k (cu.next k) = (some ch, c2) := by
        have hA : ((v3 * 16 + v2) * 16 + v1) * 16 + v0 = hi := by omega
        have hB : ((w3 * 16 + w2) * 16 + w1) * 16 + w0 = lo := by omega
        rw [hA] at x'; rw [hB] at y'
        have hn : charOfU32 hi = none := by
          unfold charOfU32
          rw [if_neg]
          unfold Nat.isValidChar; omega
        have hs : ((hi - 0xd800) <<< 10 ||| (lo - 0xdc00)) + 0x10000 = ch.toNat := by
          rw [shift_or_pair (by omega), hch]; omega
        simp only [hexUnescape, x', hn, Cur.ch_cons e', Cur.ch_cons e1, y', h1, h2, h3, h4, and_self, if_true, hs,
          charOfU32_toNat]
      simp [lexStr, hc, hc', e, e2, hu]

theorem StrLit.body {k b s} (h : StrLit b s) : StrBody k b s := by
  induction h with
  | nil => exact .nil
  | plain h1 h2 h3 _ ih => exact (StrBody.plain h1 h2 h3).append ih
  | @esc c b s h1 h2 _ ih =>
    have := (StrBody.esc (k := k) h1 h2).append ih
    rw [escChar_eq] at this
    exact this
  | @unicode h v c b s hh hc _ ih =>
    obtain ⟨d3, d2, d1, d0, v3, v2, v1, v0, rfl, a3, a2, a1, a0, ev⟩ := hh
    have := (StrBody.hex (k := k) (ch := c) a3.hexVal a2.hexVal a1.hexVal a0.hexVal (by
      have : ((v3 * 16 + v2) * 16 + v1) * 16 + v0 = c.toNat := by omega
      rw [this]; exact charOfU32_toNat c)).append ih
    exact this
  | @surrogates h l hi lo c b s hh hl h1 h2 h3 h4 hc _ ih =>
    have := (StrBody.pair (k := k) hh hl h1 h2 h3 h4 hc).append ih
    simpa using this

theorem digitsVal_acc (ds : List Char) (a : Nat) :
    ds.foldl (fun a d => 10 * a + (d.toNat - 48)) a = a * 10 ^ ds.length + decimal ds := by
  induction ds generalizing a with
  | nil => simp [decimal]
  | cons d ds ih =>
    rw [List.foldl_cons, ih, decimal, List.length_cons, Nat.pow_succ, Nat.add_mul]
    have : '0'.toNat = 48 := rfl
    rw [this, Nat.mul_comm 10 a, Nat.mul_assoc, Nat.mul_comm 10]
    omega

theorem digitsVal_decimal (ds : List Char) : digitsVal ds = decimal ds := by
  rw [digitsVal, digitsVal_acc]; simp

theorem isNumCont_iff (c : Char) : isNumCont c = true ↔ c ∈ numCont := by
  constructor
  · intro h
    simp only [isNumCont, Bool.or_eq_true, beq_iff_eq] at h
    rcases h with ((h | rfl) | rfl) | rfl
    · rcases isDig_cases h with e | e | e | e | e | e | e | e | e | e <;> subst e <;> decide
    all_goals decide
  · intro h
    simp only [numCont, List.mem_cons, List.not_mem_nil, or_false] at h
    rcases h with rfl | rfl | rfl | rfl | rfl | rfl | rfl | rfl | rfl | rfl | rfl | rfl | rfl <;> decide

theorem stopNum {r : List Char} (h : ∀ c, r.head? = some c → c ∉ numCont) : StopAt isNumCont r := by
  intro x t e
  have := h x (by rw [e]; rfl)
  rw [← isNumCont_iff] at this
  simpa using this

/-- Token of a number. -/
def Num.tok : Num → Tok
  | .nat n => .u64 n
  | .neg i => .i64 i
  | .float x => .f64 x

theorem NumLit.lex {k fl s t} (h : NumLit fl s t) {c : Cur} {tail : List Char} (hc : c.txt = s ++ tail)
    (ht : StopAt isNumCont tail) : ∃ c', c'.txt = tail ∧ lexNum k fl c = (some t.tok, c') := by
  cases h with
  | @nat sg ds hsg hne hd hv =>
    obtain ⟨c', h1, h2⟩ := lexNum_int (k := k) (fl := fl) (sg := sg) hc
      (by rcases hsg with rfl | rfl <;> simp) (digits_isDig hd) (fun _ => hne) ht
    refine ⟨c', h1, ?_⟩
    rw [h2, if_neg (by rcases hsg with rfl | rfl <;> decide), parseU64, if_neg hne, digitsVal_decimal, if_pos hv]; rfl
  | @neg ds hne hd hv =>
    obtain ⟨c', h1, h2⟩ := lexNum_int (k := k) (fl := fl) (sg := ['-']) (ds := ds) hc
      (by simp) (digits_isDig hd) (fun _ => hne) ht
    refine ⟨c', h1, ?_⟩
    rw [h2, if_pos rfl, parseI64, if_neg hne, digitsVal_decimal, if_pos hv]; rfl
  | float hsg hip hd hfr hex hor hp =>
    obtain ⟨c', h1, h2⟩ := lexNum_float (k := k) (fl := fl) rfl hsg hip hd hfr hex hor hc ht
    exact ⟨c', h1, by rw [h2, hp]; rfl⟩

/-- First character of a number. -/
theorem NumLit.head {fl s t} (h : NumLit fl s t) :
    ∃ x r, s = x :: r ∧ (x = '-' ∨ x = '+' ∨ isDig x = true) := by
  have key : ∀ (sg ip r : List Char), (sg = [] ∨ sg = ['-'] ∨ sg = ['+']) → sg ++ ip ≠ [] → Digits ip →
      ∃ x q, sg ++ ip ++ r = x :: q ∧ (x = '-' ∨ x = '+' ∨ isDig x = true) := by
    intro sg ip r h1 h2 h3
    rcases h1 with rfl | rfl | rfl
    · obtain ⟨d, ds, rfl⟩ := List.exists_cons_of_ne_nil (by simpa using h2 : ip ≠ [])
      exact ⟨d, ds ++ r, rfl, .inr (.inr (digits_isDig h3 d (by simp)))⟩
    · exact ⟨'-', ip ++ r, rfl, .inl rfl⟩
    · exact ⟨'+', ip ++ r, rfl, .inr (.inl rfl)⟩
  cases h with
  | @nat sg ds hsg hne hd hv =>
    have := key sg ds [] (by rcases hsg with rfl | rfl <;> simp) (by simp [hne]) hd
    simpa using this
  | @neg ds hne hd hv => exact ⟨'-', ds, rfl, .inl rfl⟩
  | @float sg ip fr ex x hsg hip hd _ _ _ _ =>
    have := key sg ip (fr ++ ex) hsg hip hd
    simpa using this

theorem numHead_facts {x : Char} (hx : x = '-' ∨ x = '+' ∨ isDig x = true) :
    isWs x = false ∧ x ≠ '/' ∧ x ≠ '\x00' ∧ isIdStart x = false ∧ x ≠ '"' := by
  rcases hx with rfl | rfl | hx
  · decide
  · decide
  · rcases isDig_cases hx with e | e | e | e | e | e | e | e | e | e <;> subst e <;> decide

/-- Strings set the string buffer, words the identifier buffer. -/
def Lexeme.sb : Lexeme → Option (List Char)
  | .str s => some s
  | _ => none
/-- See `Lexeme.sb`. -/
def Lexeme.ib : Lexeme → Option (List Char)
  | .word w => some w
  | _ => none

/-- The text reads as these lexemes (whose tokens are given by `tk`), leaving `tail`. -/
inductive Stream (nx : PM Unit) (tk : Lexeme → Tok) : List Char → List Lexeme → List Char → Prop where
  | nil {t} : Stream nx tk t [] t
  | cons {t l r ls tail} : TokAt nx t (tk l) r l.sb l.ib → Stream nx tk r ls tail →
      Stream nx tk t (l :: ls) tail

theorem Stream.append {nx tk a ls b ms c} (h : Stream nx tk a ls b) (h' : Stream nx tk b ms c) :
    Stream nx tk a (ls ++ ms) c := by
  induction h with
  | nil => exact h'
  | cons h _ ih => exact .cons h (ih h')

theorem Stream.split {nx tk a ls ms c} (h : Stream nx tk a (ls ++ ms) c) :
    ∃ b, Stream nx tk a ls b ∧ Stream nx tk b ms c := by
  induction ls generalizing a with
  | nil => exact ⟨a, .nil, h⟩
  | cons l ls ih =>
    cases h with
    | cons h1 h2 =>
      obtain ⟨b, h3, h4⟩ := ih h2
      exact ⟨b, .cons h1 h3, h4⟩

/-- The current token is `l` and the lexemes `ls` follow, then `tail`. -/
structure At' (nx : PM Unit) (tk : Lexeme → Tok) (st : PSt) (l : Lexeme) (ls : List Lexeme)
    (tail : List Char) : Prop where
  tok : st.tok = tk l
  sb : ∀ s, l.sb = some s → st.strbuf = s
  ib : ∀ s, l.ib = some s → st.identbuf = s
  rest : Stream nx tk st.cur.txt ls tail

theorem At'.next {nx tk st l l' ls tail} (h : At' nx tk st l (l' :: ls) tail) :
    ∃ st', nx st = .ok () st' ∧ At' nx tk st' l' ls tail ∧
      st'.strbuf = l'.sb.getD st.strbuf ∧ st'.identbuf = l'.ib.getD st.identbuf := by
  cases h.rest with
  | cons h1 h2 =>
    obtain ⟨c, hc, e⟩ := h1 st rfl
    refine ⟨_, e, ⟨rfl, fun s hs => by simp [hs], fun s hs => by simp [hs], by rw [hc]; exact h2⟩, rfl, rfl⟩

theorem Stream.start {nx tk t l ls tail} (h : Stream nx tk t (l :: ls) tail) {st : PSt} (hst : st.cur.txt = t) :
    ∃ st', nx st = .ok () st' ∧ At' nx tk st' l ls tail := by
  cases h with
  | cons h1 h2 =>
    obtain ⟨c, hc, e⟩ := h1 st hst
    exact ⟨_, e, ⟨rfl, fun s hs => by simp [hs], fun s hs => by simp [hs], by rw [hc]; exact h2⟩⟩

end NS
