import Verif.Spec.Rfc8259
import Verif.Lemmas.Lex
/-! A finite automaton that accepts every RFC 8259 text: a tool to show that a text is not one. -/
namespace NS.Rfc

/-- States: before a value, after `[`, after `{`, after a value, in a string, after a backslash, in a
word or number, after a minus sign. -/
inductive RS where
  | v | a | o | e | s | x | w | m
deriving DecidableEq

def isWsB (c : Char) : Bool := c == ' ' || c == '\t' || c == '\n' || c == '\r'
def isDigitB (c : Char) : Bool := decide (48 ≤ c.toNat ∧ c.toNat ≤ 57)
def isWordB (c : Char) : Bool := isDigitB c || decide (97 ≤ c.toNat ∧ c.toNat ≤ 122) || c == '.' || c == '+' || c == '-' || c == 'E'

def stepV (c : Char) : Option RS :=
  if isWsB c then some .v else if c = '"' then some .s else if c = '[' then some .a else if c = '{' then some .o
  else if c = '-' then some .m else if isDigitB c || c == 'n' || c == 't' || c == 'f' then some .w else none

def stepE (c : Char) : Option RS :=
  if isWsB c then some .e else if c = ',' then some .v else if c = ']' then some .e else if c = '}' then some .e
  else if c = ':' then some .v else none

def step : RS → Char → Option RS
  | .v, c => stepV c
  | .a, c => if isWsB c then some .a else if c = ']' then some .e else stepV c
  | .o, c => if isWsB c then some .o else if c = '}' then some .e else if c = '"' then some .s else none
  | .e, c => stepE c
  | .s, c => if c = '"' then some .e else if c = '\\' then some .x else if c.toNat < 32 then none else some .s
  | .x, _ => some .s
  | .m, c => if isDigitB c then some .w else none
  | .w, c => if isWordB c then some .w else stepE c

def run : RS → List Char → Option RS
  | q, [] => some q
  | q, c :: t => (step q c).bind fun q' => run q' t

theorem run_append (q : RS) (a b : List Char) : run q (a ++ b) = (run q a).bind fun q' => run q' b := by
  induction a generalizing q with
  | nil => rfl
  | cons c a ih =>
    show (step q c).bind _ = ((step q c).bind _).bind _
    rw [Option.bind_assoc]
    congr 1
    funext q'
    exact ih q'

/-- After a value. -/
def Done (q : RS) : Prop := q = .e ∨ q = .w

theorem Ws.bool {w : List Char} (h : Ws w) : ∀ c ∈ w, isWsB c = true := by
  intro c hc
  rcases h c hc with rfl | rfl | rfl | rfl <;> rfl

theorem run_ws {q : RS} (hq : q = .v ∨ q = .a ∨ q = .o ∨ q = .e) {w : List Char} (h : Ws w) : run q w = some q := by
  have hb := h.bool
  clear h
  induction w with
  | nil => rfl
  | cons c w ih =>
    have hc := hb c (by simp)
    show (step q c).bind _ = _
    have : step q c = some q := by rcases hq with rfl | rfl | rfl | rfl <;> simp [step, stepV, stepE, hc]
    rw [this]
    exact ih fun d hd => hb d (by simp [hd])

theorem run_done_ws {q : RS} (hq : Done q) {w : List Char} (h : Ws w) : ∃ q', Done q' ∧ run q w = some q' := by
  rcases hq with rfl | rfl
  · exact ⟨.e, .inl rfl, run_ws (by simp) h⟩
  · cases w with
    | nil => exact ⟨.w, .inr rfl, rfl⟩
    | cons c w =>
      have hs : step .w c = some .e := by
        rcases h c (by simp) with rfl | rfl | rfl | rfl <;> decide
      exact ⟨.e, .inl rfl, by
        show (step .w c).bind _ = _
        rw [hs]
        exact run_ws (q := .e) (by simp) fun d hd => h d (by simp [hd])⟩

theorem done_step {q : RS} (hq : Done q) {c : Char} (hc : c = ',' ∨ c = ']' ∨ c = '}' ∨ c = ':') (t : List Char) :
    run q (c :: t) = run (if c = ',' ∨ c = ':' then .v else .e) t := by
  rcases hq with rfl | rfl <;> rcases hc with rfl | rfl | rfl | rfl <;> rfl

theorem run_word {w : List Char} (h : ∀ c ∈ w, isWordB c = true) : run .w w = some .w := by
  induction w with
  | nil => rfl
  | cons c w ih =>
    show (step .w c).bind _ = _
    rw [show step .w c = some .w by simp [step, h c (by simp)]]
    exact ih fun d hd => h d (by simp [hd])

theorem Digit.bool {c : Char} (h : Digit c) : isDigitB c = true := decide_eq_true h
theorem Digit.word {c : Char} (h : Digit c) : isWordB c = true := by simp [isWordB, h.bool]

theorem Digit.ne {c d : Char} (h : Digit c) (hd : ¬ Digit d) : c ≠ d := by rintro rfl; exact hd h

theorem Number.shape {s : List Char} (h : Number s) :
    ∃ sg d r, s = sg ++ d :: r ∧ (sg = [] ∨ sg = ['-']) ∧ Digit d ∧ ∀ c ∈ r, isWordB c = true := by
  obtain ⟨sg, ip, fr, ex, rfl, h1, h2, h3, h4⟩ := h
  have hfr : ∀ c ∈ fr, isWordB c = true := by
    rcases h3 with rfl | ⟨f, rfl, _, hf⟩
    · simp
    · intro c hc
      rcases List.mem_cons.1 hc with rfl | hc
      · rfl
      · exact (hf c hc).word
  have hex : ∀ c ∈ ex, isWordB c = true := by
    rcases h4 with rfl | ⟨e, m, x, rfl, he, hm, _, hx⟩
    · simp
    · intro c hc
      rcases List.mem_cons.1 hc with rfl | hc
      · rcases he with rfl | rfl <;> rfl
      · rcases List.mem_append.1 hc with hc | hc
        · rcases hm with rfl | rfl | rfl
          · simp at hc
          · obtain rfl := List.mem_singleton.1 hc; rfl
          · obtain rfl := List.mem_singleton.1 hc; rfl
        · exact (hx c hc).word
  obtain ⟨d, ds, rfl, hd, hds⟩ : ∃ d ds, ip = d :: ds ∧ Digit d ∧ ∀ c ∈ ds, isWordB c = true := by
    rcases h2 with rfl | ⟨d, ds, rfl, hd, _, hds⟩
    · exact ⟨'0', [], rfl, by unfold Digit; decide, by simp⟩
    · exact ⟨d, ds, rfl, hd, fun c hc => (hds c hc).word⟩
  refine ⟨sg, d, ds ++ fr ++ ex, by simp, h1, hd, ?_⟩
  intro c hc
  simp only [List.mem_append] at hc
  rcases hc with (hc | hc) | hc
  · exact hds c hc
  · exact hfr c hc
  · exact hex c hc

theorem stepV_digit {c : Char} (h : Digit c) : stepV c = some .w := by
  have hd := h.bool
  have h1 : isWsB c = false := by
    simp [isWsB, h.ne (d := ' ') (by unfold Digit; decide), h.ne (d := '\t') (by unfold Digit; decide), h.ne (d := '\n') (by unfold Digit; decide), h.ne (d := '\r') (by unfold Digit; decide)]
  simp [stepV, h1, hd, h.ne (d := '"') (by unfold Digit; decide), h.ne (d := '[') (by unfold Digit; decide), h.ne (d := '{') (by unfold Digit; decide), h.ne (d := '-') (by unfold Digit; decide)]

theorem stepA {c : Char} (h1 : isWsB c = false) (h2 : c ≠ ']') {q : RS} (hq : q = .v ∨ q = .a) : step q c = stepV c := by
  rcases hq with rfl | rfl <;> simp [step, h1, h2]

theorem run_number {s : List Char} (h : Number s) {q : RS} (hq : q = .v ∨ q = .a) : run q s = some .w := by
  obtain ⟨sg, d, r, rfl, h1, hd, hr⟩ := h.shape
  have hdw : isWsB d = false := by
    simp [isWsB, hd.ne (d := ' ') (by unfold Digit; decide), hd.ne (d := '\t') (by unfold Digit; decide), hd.ne (d := '\n') (by unfold Digit; decide), hd.ne (d := '\r') (by unfold Digit; decide)]
  rcases h1 with rfl | rfl
  · show (step q d).bind _ = _
    rw [stepA hdw (hd.ne (by unfold Digit; decide)) hq, stepV_digit hd]
    exact run_word hr
  · show (step q '-').bind _ = _
    rw [stepA (by rfl) (by decide) hq]
    show (step .m d).bind _ = _
    rw [show step .m d = some .w by simp [step, hd.bool]]
    exact run_word hr

theorem run_s_cons {c : Char} {t} (h1 : c ≠ '"') (h2 : c ≠ '\\') (h3 : 32 ≤ c.toNat) : run .s (c :: t) = run .s t := by
  show (step .s c).bind _ = _
  rw [show step .s c = some .s by
    simp only [step]
    rw [if_neg h1, if_neg h2, if_neg (by omega)]]
  rfl

theorem hexDigit_ok {d : Char} {v : Nat} (h : HexDigit d v) : d ≠ '"' ∧ d ≠ '\\' ∧ 32 ≤ d.toNat := by
  have : 48 ≤ d.toNat ∧ d.toNat ≠ 92 := by unfold HexDigit at h; omega
  refine ⟨?_, ?_, by omega⟩
  · rintro rfl; exact absurd this.1 (by decide)
  · rintro rfl; exact absurd rfl this.2

theorem run_hex {h : List Char} {v : Nat} (hh : Hex4 h v) (t : List Char) : run .s (h ++ t) = run .s t := by
  obtain ⟨a, b, c, d, _, _, _, _, rfl, ha, hb, hc, hd, _⟩ := hh
  simp only [List.cons_append, List.nil_append]
  have a' := hexDigit_ok ha; have b' := hexDigit_ok hb; have c' := hexDigit_ok hc; have d' := hexDigit_ok hd
  rw [run_s_cons a'.1 a'.2.1 a'.2.2, run_s_cons b'.1 b'.2.1 b'.2.2, run_s_cons c'.1 c'.2.1 c'.2.2,
    run_s_cons d'.1 d'.2.1 d'.2.2]

theorem run_body {b s : List Char} (h : StrBody b s) (t : List Char) : run .s (b ++ t) = run .s t := by
  induction h with
  | nil => rfl
  | @unescaped c b s h1 h2 h3 _ ih =>
    rw [List.cons_append, run_s_cons (by rintro rfl; exact h2 rfl) (by rintro rfl; exact h3 rfl) h1]
    exact ih
  | short _ _ ih => exact ih
  | @unicode h v x b s hh _ _ ih =>
    have : '\\' :: 'u' :: (h ++ b) ++ t = '\\' :: 'u' :: (h ++ (b ++ t)) := by simp
    rw [this]
    show run .s (h ++ _) = _
    rw [run_hex hh]
    exact ih
  | @pair h l hi lo x b s hh hl _ _ _ _ _ _ ih =>
    have : '\\' :: 'u' :: (h ++ '\\' :: 'u' :: (l ++ b)) ++ t = '\\' :: 'u' :: (h ++ ('\\' :: 'u' :: (l ++ (b ++ t)))) := by simp
    rw [this]
    show run .s (h ++ _) = _
    rw [run_hex hh]
    show run .s (l ++ _) = _
    rw [run_hex hl]
    exact ih

theorem run_str {k s : List Char} (h : Str k s) {q : RS} (hq : q = .v ∨ q = .a ∨ q = .o) : run q k = some .e := by
  obtain ⟨b, rfl, hb⟩ := h
  have : step q '"' = some .s := by rcases hq with rfl | rfl | rfl <;> rfl
  show (step q '"').bind _ = _
  rw [this]
  show run .s _ = _
  rw [run_body hb]
  rfl

theorem value_run {s : List Char} (h : Value s) : ∀ q, q = .v ∨ q = .a → ∃ q', Done q' ∧ run q s = some q' := by
  refine Value.rec
    (motive_1 := fun s _ => ∀ q, q = .v ∨ q = .a → ∃ q', Done q' ∧ run q s = some q')
    (motive_2 := fun s _ => ∀ q, q = .v ∨ q = .a → ∃ q', Done q' ∧ run q s = some q')
    (motive_3 := fun s _ => ∀ q, q = .v ∨ q = .o → ∃ q', Done q' ∧ run q s = some q')
    (motive_4 := fun s _ => ∀ q, q = .v ∨ q = .o → ∃ q', Done q' ∧ run q s = some q')
    ?_ ?_ ?_ ?_ ?_ ?_ ?_ ?_ ?_ ?_ ?_ ?_ ?_ ?_ h
  · rintro q (rfl | rfl) <;> exact ⟨.w, .inr rfl, by decide⟩
  · rintro q (rfl | rfl) <;> exact ⟨.w, .inr rfl, by decide⟩
  · rintro q (rfl | rfl) <;> exact ⟨.w, .inr rfl, by decide⟩
  · intro s hs q hq
    exact ⟨.w, .inr rfl, run_number hs hq⟩
  · intro k s hs q hq
    exact ⟨.e, .inl rfl, run_str hs (by rcases hq with h | h <;> simp [h])⟩
  · intro w hw q hq
    refine ⟨.e, .inl rfl, ?_⟩
    have : step q '[' = some .a := by rcases hq with rfl | rfl <;> rfl
    show (step q '[').bind _ = _
    rw [this]
    show run .a _ = _
    rw [run_append, run_ws (by simp) hw]
    rfl
  · intro e _ ih q hq
    have : step q '[' = some .a := by rcases hq with rfl | rfl <;> rfl
    obtain ⟨q', hd, hr⟩ := ih .a (.inr rfl)
    refine ⟨.e, .inl rfl, ?_⟩
    show (step q '[').bind _ = _
    rw [this]
    show run .a _ = _
    rw [run_append, hr]
    show run q' _ = _
    rw [done_step hd (by simp)]
    rfl
  · intro w hw q hq
    refine ⟨.e, .inl rfl, ?_⟩
    have : step q '{' = some .o := by rcases hq with rfl | rfl <;> rfl
    show (step q '{').bind _ = _
    rw [this]
    show run .o _ = _
    rw [run_append, run_ws (by simp) hw]
    rfl
  · intro e _ ih q hq
    have : step q '{' = some .o := by rcases hq with rfl | rfl <;> rfl
    obtain ⟨q', hd, hr⟩ := ih .o (.inr rfl)
    refine ⟨.e, .inl rfl, ?_⟩
    show (step q '{').bind _ = _
    rw [this]
    show run .o _ = _
    rw [run_append, hr]
    show run q' _ = _
    rw [done_step hd (by simp)]
    rfl
  · intro a v b ha _ hb ih q hq
    obtain ⟨q1, hd, hr⟩ := ih q hq
    obtain ⟨q2, hd2, hr2⟩ := run_done_ws hd hb
    refine ⟨q2, hd2, ?_⟩
    rw [run_append, run_append, run_ws (by rcases hq with h | h <;> simp [h]) ha]
    rw [Option.bind_some, hr]
    exact hr2
  · intro a v b e ha _ hb _ ih ih2 q hq
    obtain ⟨q1, hd, hr⟩ := ih q hq
    obtain ⟨q2, hd2, hr2⟩ := run_done_ws hd hb
    obtain ⟨q3, hd3, hr3⟩ := ih2 .v (.inl rfl)
    refine ⟨q3, hd3, ?_⟩
    rw [run_append, run_append, run_append, run_ws (by rcases hq with h | h <;> simp [h]) ha]
    rw [Option.bind_some, hr]
    show ((run q1 b).bind _) = _
    rw [hr2]
    show run q2 _ = _
    rw [done_step hd2 (by simp)]
    exact hr3
  · intro m _ ih; exact ih
  · intro m ms _ _ ih ih2 q hq
    obtain ⟨q1, hd, hr⟩ := ih q hq
    obtain ⟨q2, hd2, hr2⟩ := ih2 .v (.inl rfl)
    refine ⟨q2, hd2, ?_⟩
    rw [run_append, hr]
    show run q1 _ = _
    rw [done_step hd (by simp)]
    exact hr2
  · intro a k key b c v d ha hk hb hc _ hd ih q hq
    obtain ⟨q1, hd1, hr1⟩ := ih .v (.inl rfl)
    obtain ⟨q2, hd2, hr2⟩ := run_done_ws hd1 hd
    refine ⟨q2, hd2, ?_⟩
    rw [run_append, run_append, run_append, run_ws (by rcases hq with h | h <;> simp [h]) ha]
    show (((run q k).bind _).bind _) = _
    rw [run_str hk (by rcases hq with h | h <;> simp [h])]
    show (run .e b).bind _ = _
    rw [run_ws (by simp) hb]
    show run .v _ = _
    rw [run_append, run_append, run_ws (by simp) hc]
    show ((run .v v).bind _) = _
    rw [hr1]
    exact hr2

/-- Every RFC 8259 text is accepted by the automaton. -/
theorem text_run {s : List Char} (h : Text s) : ∃ q', Done q' ∧ run .v s = some q' := by
  obtain ⟨a, v, b, rfl, ha, hv, hb⟩ := h
  obtain ⟨q1, hd1, hr1⟩ := value_run hv .v (.inl rfl)
  obtain ⟨q2, hd2, hr2⟩ := run_done_ws hd1 hb
  refine ⟨q2, hd2, ?_⟩
  rw [run_append, run_append, run_ws (by simp) ha]
  show (run .v v).bind _ = _
  rw [hr1]
  exact hr2

theorem not_text {s : List Char} (h : run .v s = none) : ¬ Text s := by
  intro ht
  obtain ⟨q, _, hr⟩ := text_run ht
  rw [h] at hr; cases hr

end NS.Rfc
