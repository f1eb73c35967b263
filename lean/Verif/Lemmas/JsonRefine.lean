import Verif.Lemmas.Agree
import Verif.Lemmas.JsonLex
import Verif.Spec.JsonDecode
/-! `deserialize_json` computes the reference decoder on every text of a JSON value. -/
namespace NS

/-- The outcome `r` of the reader is what the reference says; on success `Q` holds of the state. -/
def Agree {α : Type} (r : Out PErr PSt α) (d : Dec α) (Q : PSt → Prop) : Prop :=
  match d with
  | .ok a => ∃ s, r = .ok a s ∧ Q s
  | .err => ∃ e s, r = .err e s
  | .panic => r = .panic
  | .oof => True

theorem Agree.bind {α β : Type} {x : PM α} {f : α → PM β} {d : Dec α} {g : α → Dec β} {st : PSt}
    {Q Q' : PSt → Prop} (h : Agree (x st) d Q) (h' : ∀ a s, Q s → Agree (f a s) (g a) Q') :
    Agree ((x >>= f) st) (d.bind g) Q' := by
  cases d with
  | ok a =>
    obtain ⟨s, e, q⟩ := h
    rw [M.bind_ok e]; exact h' a s q
  | err =>
    obtain ⟨e, s, h⟩ := h
    exact ⟨e, s, M.bind_err h⟩
  | panic => exact M.bind_panic h
  | oof => trivial

/-- A reader step that needs no decoding. -/
theorem Agree.step {α β : Type} {x : PM α} {f : α → PM β} {d : Dec β} {st s : PSt} {a : α}
    {Q : PSt → Prop} (h : x st = .ok a s) (h' : Agree (f a s) d Q) : Agree ((x >>= f) st) d Q := by
  rw [M.bind_ok h]; exact h'

theorem Agree.fail {α β : Type} {x : PM α} {f : α → PM β} {st : PSt}
    {Q : PSt → Prop} (h : ∃ e s, x st = .err e s) : Agree ((x >>= f) st) .err Q := by
  obtain ⟨e, s, h⟩ := h
  exact ⟨e, s, M.bind_err h⟩

theorem Agree.map {α β : Type} {x : PM α} {f : α → β} {d : Dec α} {st : PSt} {Q : PSt → Prop}
    (h : Agree (x st) d Q) : Agree ((x >>= fun a => (pure (f a) : PM β)) st) (d.bind fun a => .ok (f a)) Q :=
  h.bind fun _ s q => ⟨s, rfl, q⟩

theorem Agree.mono {α : Type} {r : Out PErr PSt α} {d : Dec α} {Q Q' : PSt → Prop} (h : Agree r d Q)
    (hq : ∀ s, Q s → Q' s) : Agree r d Q' := by
  cases d with
  | ok a => obtain ⟨s, e, q⟩ := h; exact ⟨s, e, hq s q⟩
  | err => exact h
  | panic => exact h
  | oof => trivial

/-- Lexemes that can follow a value. -/
def IsFollow (l : Lexeme) : Prop :=
  l = .punct .comma ∨ l = .punct .colon ∨ l = .punct .blockClose ∨ l = .punct .curlyClose ∨ l = .eof

/-- Lexemes that can start a value. -/
def IsStart (l : Lexeme) : Prop :=
  l = .word ['n', 'u', 'l', 'l'] ∨ l = .word ['t', 'r', 'u', 'e'] ∨ l = .word ['f', 'a', 'l', 's', 'e'] ∨
  (∃ t, l = .num t) ∨ (∃ s, l = .str s) ∨ l = .punct .blockOpen ∨ l = .punct .curlyOpen

/-- A continuation after a value. -/
def Follow (rest : List Lexeme) : Prop := ∃ c r, rest = c :: r ∧ IsFollow c

theorem JTree.lexemes_start (J : JTree) : ∃ l ls, J.lexemes = l :: ls ∧ IsStart l := by
  cases J with
  | null => exact ⟨_, _, by rw [JTree.lexemes], .inl rfl⟩
  | bool b => cases b <;> exact ⟨_, _, by rw [JTree.lexemes], by simp [IsStart]⟩
  | num t => exact ⟨_, _, by rw [JTree.lexemes], by simp [IsStart]⟩
  | str t => exact ⟨_, _, by rw [JTree.lexemes], by simp [IsStart]⟩
  | arr xs tr => exact ⟨_, _, JTree.lexemes_arr xs tr, by simp [IsStart]⟩
  | obj xs tr => exact ⟨_, _, JTree.lexemes_obj xs tr, by simp [IsStart]⟩

theorem IsStart.ne {l : Lexeme} (h : IsStart l) : jtok l ≠ .comma ∧ jtok l ≠ .colon ∧ jtok l ≠ .blockClose ∧
    jtok l ≠ .curlyClose ∧ jtok l ≠ .eof := by
  rcases h with rfl | rfl | rfl | ⟨t, rfl⟩ | ⟨s, rfl⟩ | rfl | rfl <;>
    first | decide | (cases t <;> simp [jtok, Num.tok]) | simp [jtok]

theorem IsFollow.ne {l : Lexeme} (h : IsFollow l) : jtok l ≠ .blockOpen ∧ jtok l ≠ .curlyOpen ∧
    jtok l ≠ .str ∧ jtok l ≠ .null ∧ (∀ b, jtok l ≠ .bool b) ∧ (∀ b, jtok l ≠ .u64 b) ∧ (∀ b, jtok l ≠ .i64 b) ∧
    (∀ b, jtok l ≠ .f64 b) := by
  rcases h with rfl | rfl | rfl | rfl | rfl <;> simp [jtok]

theorem IsFollow.noStr {l : Lexeme} (h : IsFollow l) : l.sb = none ∧ ∀ s, l ≠ .str s := by
  rcases h with rfl | rfl | rfl | rfl | rfl <;> simp [Lexeme.sb]

theorem jNext_tame (fl) : Tame (jNext fl) := by
  intro st
  have hs := (jSkip_fuel (n := st.cur.txt.length + 1) (m := st.cur.txt.length + 1) (c := st.cur) (by omega) (by omega)).2
  unfold jNext
  cases e : jSkip (st.cur.txt.length + 1) st.cur with
  | oof => exact absurd e hs
  | bad c w => exact .inr ⟨_, _, rfl⟩
  | «at» c =>
    simp only
    unfold jTok
    simp only
    split
    · exact .inl ⟨_, rfl⟩
    · split
      · exact .inl ⟨_, rfl⟩
      · split
        · split
          · exact .inl ⟨_, rfl⟩
          · exact .inr ⟨_, _, rfl⟩
        · split
          · split
            · exact .inl ⟨_, rfl⟩
            · split
              · exact .inl ⟨_, rfl⟩
              · split
                · exact .inl ⟨_, rfl⟩
                · exact .inr ⟨_, _, rfl⟩
          · split
            · have := (lexStr_fuel jcol (n := c.txt.length + 1) (m := c.txt.length + 1) (c := c.next jcol) []
                (by simp; omega) (by simp; omega)).2
              split
              · exact .inl ⟨_, rfl⟩
              · exact .inr ⟨_, _, rfl⟩
              · rename_i h; exact absurd h this
            · exact .inr ⟨_, _, rfl⟩

/-- Position in a JSON stream. -/
abbrev JPos (fl : FloatOps) := Pos (jNext fl) jtok

/-- A list of comma separated items: the first item, a separator, the others. -/
theorem commaLexemes_cons (trail : Bool) (x : List Lexeme) (xs : List (List Lexeme)) (rest : List Lexeme) :
    ∃ sep, commaLexemes trail (x :: xs) ++ rest = x ++ (sep ++ (commaLexemes trail xs ++ rest)) ∧
      (sep = [.punct .comma] ∨ (sep = [] ∧ xs = [] ∧ trail = false)) ∧
      (commaLexemes trail (x :: xs)).length = x.length + sep.length + (commaLexemes trail xs).length ∧
      (xs = [] → trail = true → sep = [.punct .comma]) := by
  cases xs with
  | nil =>
    cases trail
    · exact ⟨[], by simp [commaLexemes], .inr ⟨rfl, rfl, rfl⟩, by simp [commaLexemes], by simp⟩
    · exact ⟨[.punct .comma], by simp [commaLexemes], .inl rfl, by simp [commaLexemes], by simp⟩
  | cons y r => exact ⟨[.punct .comma], by simp [commaLexemes], .inl rfl, by simp [commaLexemes]; omega, by simp⟩

variable {fl : FloatOps}

/-- Eating the separator after an item. -/
theorem eat_sep {st sep xs trail close what rest tail}
    (h : JPos fl st (sep ++ (commaLexemes trail xs ++ .punct close :: rest)) tail)
    (hs : sep = [.punct .comma] ∨ (sep = [] ∧ xs = [] ∧ trail = false)) (hc : close ≠ .comma) :
    ∃ st', eatComma (jNext fl) close what st = .ok () st' ∧
      JPos fl st' (commaLexemes trail xs ++ .punct close :: rest) tail := by
  rcases hs with rfl | ⟨rfl, rfl, -⟩
  · rw [eatComma_comma (by exact h.tok)]
    exact h.next' (by simp)
  · exact ⟨st, eatComma_close (by exact h.tok) hc, h⟩

/-- A position at a tree is a position at its first lexeme. -/
theorem JPos.start {st} {J : JTree} {rest tail} (h : JPos fl st (J.lexemes ++ rest) tail) :
    ∃ l, IsStart l ∧ st.tok = jtok l := by
  obtain ⟨l, ls, e, hl⟩ := J.lexemes_start
  rw [e] at h
  exact ⟨l, hl, h.tok⟩

/-- The item loop. -/
theorem whileNot_agree {α β : Type} {close : Tok}
    {item : α → PM α} {step : α → β → Dec α} {lx : β → List Lexeme} {tail : List Char} {rest : List Lexeme}
    (xs : List β)
    (hstart : ∀ x ∈ xs, ∃ l ls, lx x = l :: ls ∧ jtok l ≠ close)
    (hitem : ∀ x ∈ xs, ∀ acc st sep ys tr, (sep = [.punct .comma] ∨ (sep = [] ∧ ys = [] ∧ tr = false)) →
      JPos fl st (lx x ++ (sep ++ (commaLexemes tr ys ++ .punct close :: rest))) tail →
      Agree (item acc st) (step acc x)
        (fun s => JPos fl s (commaLexemes tr ys ++ .punct close :: rest) tail))
    (n : Nat) (hn : xs.length < n) (acc : α) (trail : Bool) (st : PSt)
    (h : JPos fl st (commaLexemes trail (xs.map lx) ++ .punct close :: rest) tail) :
    Agree (whileNot close item n acc st) (foldD step acc xs)
      (fun s => JPos fl s (.punct close :: rest) tail) := by
  induction xs generalizing n acc st with
  | nil =>
    obtain ⟨n, rfl⟩ : ∃ m, n = m + 1 := ⟨n - 1, by omega⟩
    refine ⟨st, ?_, h⟩
    show (if st.tok = close then Pure.pure acc else (item acc >>= fun acc' => whileNot close item n acc') : PM α) st = _
    rw [if_pos (by exact h.tok)]
    rfl
  | cons x xs ih =>
    obtain ⟨n, rfl⟩ : ∃ m, n = m + 1 := ⟨n - 1, by omega⟩
    obtain ⟨sep, e1, e2, _, _⟩ := commaLexemes_cons trail (lx x) (xs.map lx) (.punct close :: rest)
    rw [List.map_cons, e1] at h
    obtain ⟨l, ls, el, hl⟩ := hstart x (List.mem_cons_self ..)
    have htok : st.tok ≠ close := by
      rw [el] at h
      rw [show st.tok = jtok l from h.tok]; exact hl
    show Agree ((if st.tok = close then Pure.pure acc else (item acc >>= fun acc' => whileNot close item n acc') : PM α) st) _ _
    rw [if_neg htok, foldD]
    refine Agree.bind (hitem x (List.mem_cons_self ..) acc st sep _ trail e2 h) fun a s q => ?_
    exact ih (fun y hy => hstart y (List.mem_cons_of_mem _ hy)) (fun y hy => hitem y (List.mem_cons_of_mem _ hy))
      n (by simp at hn; omega) a s q

/-- `rd` reads the tree `J` as `d` says. -/
def Reads (fl : FloatOps) {α : Type} (rd : PM α) (J : JTree) (d : Dec α) : Prop :=
  ∀ st rest tail, Follow rest → JPos fl st (J.lexemes ++ rest) tail →
    Agree (rd st) d (fun s => JPos fl s rest tail)

/-- What `rd` does where no value starts. -/
def ReadsNone (fl : FloatOps) {α : Type} (rd : PM α) (d : Dec α) : Prop :=
  ∀ st rest tail, Follow rest → JPos fl st rest tail → Agree (rd st) d (fun _ => True)

theorem Follow.ne {rest} (h : Follow rest) : rest ≠ [] := by
  obtain ⟨c, r, rfl, _⟩ := h; simp

theorem follow_sep {sep xs trail close rest}
    (hs : sep = [.punct .comma] ∨ (sep = [] ∧ xs = [] ∧ trail = false))
    (hc : close = .blockClose ∨ close = .curlyClose) :
    Follow (sep ++ (commaLexemes trail xs ++ .punct close :: rest)) := by
  rcases hs with rfl | ⟨rfl, rfl, -⟩
  · exact ⟨_, _, rfl, .inl rfl⟩
  · rcases hc with rfl | rfl
    · exact ⟨_, _, rfl, by simp [IsFollow]⟩
    · exact ⟨_, _, rfl, by simp [IsFollow]⟩

theorem Pos.restart {nx tk st l ls tail} (h : Pos nx tk st (l :: ls) tail) (hne : ls ≠ []) {st0 : PSt}
    (h0 : st0.cur = st.cur) : ∃ st', nx st0 = .ok () st' ∧ Pos nx tk st' ls tail := by
  cases ls with
  | nil => exact absurd rfl hne
  | cons l' ls =>
    have h' : At' nx tk st l (l' :: ls) tail := h
    exact h'.rest.start (by rw [h0])

theorem M.bind_assoc {ε σ α β γ : Type} (x : M ε σ α) (f : α → M ε σ β) (g : β → M ε σ γ) :
    (x >>= f) >>= g = x >>= fun a => f a >>= g := by
  funext s
  simp only [M.bind_def]
  cases x s <;> rfl

theorem M.pure_bind {ε σ α β : Type} (a : α) (f : α → M ε σ β) : (Pure.pure a : M ε σ α) >>= f = f a := rfl

/-! ## Sequences and maps -/

theorem open_close_err {α : Type} {rd : PM α} {t : Tok} {what st} {f : Unit → PM α}
    (hrd : rd = (expectTok (jNext fl) t what >>= f)) (h : st.tok ≠ t) {Q} : Agree (rd st) .err Q := by
  obtain ⟨e, he⟩ := expectTok_err (nx := jNext fl) (what := what) h
  exact ⟨e, st, by rw [hrd, M.bind_err he]⟩

theorem deSeq_reads {n : Nat} {rd : PM Val} {D : JTree → Dec Val} {add xs trail}
    (hrd : ∀ x ∈ xs, Reads fl rd x (D x)) (hn : xs.length < n) :
    Reads fl (deSeq (jNext fl) n rd add) (.arr xs trail)
      ((foldD (fun acc x => (D x).bind fun v => .ok (add acc v)) [] xs).bind fun vs => .ok (.seq vs)) := by
  intro st rest tail hf h
  rw [JTree.lexemes_arr] at h
  simp only [List.cons_append, List.append_assoc, List.nil_append] at h
  obtain ⟨s1, e1, h1⟩ := h.next' (by simp)
  have e1' : blockOpen (jNext fl) st = .ok () s1 := (expectTok_ok (by exact h.tok)).trans e1
  refine Agree.step e1' ?_
  refine Agree.bind (whileNot_agree xs ?_ ?_ n hn [] trail s1 h1) ?_
  · intro x _
    obtain ⟨l, ls, e, hl⟩ := x.lexemes_start
    exact ⟨l, ls, e, hl.ne.2.2.1⟩
  · intro x hx acc s sep ys tr hsep hpos
    refine Agree.bind (hrd x hx s _ tail (follow_sep hsep (.inl rfl)) hpos) fun v s' hs' => ?_
    obtain ⟨s2, e2, h2⟩ := eat_sep (what := ", or ]") hs' hsep (by decide)
    exact Agree.step e2 ⟨s2, rfl, h2⟩
  · intro vs s hs
    obtain ⟨s2, e2, h2⟩ := hs.next' hf.ne
    have e2' : blockClose (jNext fl) s = .ok () s2 := (expectTok_ok (by exact hs.tok)).trans e2
    exact Agree.step e2' ⟨s2, rfl, h2⟩

theorem deMap_reads {n : Nat} {rk rv : PM Val} {D E : JTree → Dec Val} {add ms trail}
    (hk : ∀ m ∈ ms, Reads fl rk m.1 (D m.1)) (hv : ∀ m ∈ ms, Reads fl rv m.2 (E m.2)) (hn : ms.length < n) :
    Reads fl (deMap (jNext fl) n rk rv add) (.obj ms trail)
      ((foldD (fun acc m => (D m.1).bind fun a => (E m.2).bind fun b => .ok (add acc (.entry a b))) [] ms).bind
        fun vs => .ok (.seq vs)) := by
  intro st rest tail hf h
  rw [JTree.lexemes_obj] at h
  simp only [List.cons_append, List.append_assoc, List.nil_append] at h
  obtain ⟨s1, e1, h1⟩ := h.next' (by simp)
  have e1' : curlyOpen (jNext fl) st = .ok () s1 := (expectTok_ok (by exact h.tok)).trans e1
  refine Agree.step e1' ?_
  refine Agree.bind (whileNot_agree (lx := fun m : JTree × JTree => m.1.lexemes ++ .punct .colon :: m.2.lexemes)
    ms ?_ ?_ n hn [] trail s1 h1) ?_
  · intro x _
    obtain ⟨l, ls, e, hl⟩ := x.1.lexemes_start
    exact ⟨l, ls ++ .punct .colon :: x.2.lexemes, by simp [e], hl.ne.2.2.2.1⟩
  · intro x hx acc s sep ys tr hsep hpos
    simp only [List.append_assoc, List.cons_append] at hpos
    refine Agree.bind (hk x hx s _ tail ⟨_, _, rfl, by simp [IsFollow]⟩ hpos) fun a s' hs' => ?_
    obtain ⟨s2, e2, h2⟩ := hs'.next' (by obtain ⟨l, ls, e, hl⟩ := x.2.lexemes_start; simp [e])
    refine Agree.step ((expectTok_ok (by exact hs'.tok)).trans e2) ?_
    refine Agree.bind (hv x hx s2 _ tail (follow_sep hsep (.inr rfl)) h2) fun b s3 hs3 => ?_
    obtain ⟨s4, e4, h4⟩ := eat_sep (what := ", or }") hs3 hsep (by decide)
    exact Agree.step e4 ⟨s4, rfl, h4⟩
  · intro vs s hs
    obtain ⟨s2, e2, h2⟩ := hs.next' hf.ne
    have e2' : curlyClose (jNext fl) s = .ok () s2 := (expectTok_ok (by exact hs.tok)).trans e2
    exact Agree.step e2' ⟨s2, rfl, h2⟩

/-! ## Strings -/

theorem deStr_ok {st s ls tail} (h : JPos fl st (.str s :: ls) tail) (hne : ls ≠ []) :
    ∃ st', deStr (jNext fl) st = .ok s st' ∧ JPos fl st' ls tail := by
  obtain ⟨s1, e1, h1⟩ := h.restart hne (st0 := { st with strbuf := [] }) rfl
  refine ⟨s1, ?_, h1⟩
  have ht : st.tok = .str := h.tok
  have hs : st.strbuf = s := At'.sb h s rfl
  have ea : asString st = .ok s { st with strbuf := [] } := by
    show (if st.tok = .str then (M.set { st with strbuf := [] } >>= fun _ => Pure.pure st.strbuf) else errToken "string" : PM _) st = _
    rw [if_pos ht, hs]; rfl
  show (asString >>= fun s => jNext fl >>= fun _ => Pure.pure s) st = _
  rw [M.bind_ok ea, M.bind_ok e1]; rfl

theorem deStr_err {st} (h : st.tok ≠ .str) : ∃ e s, deStr (jNext fl) st = .err e s := by
  refine ⟨⟨st.cur.line, st.cur.col, .unexpectedToken st.tok "string".toList⟩, st, ?_⟩
  have : asString st = .err ⟨st.cur.line, st.cur.col, .unexpectedToken st.tok "string".toList⟩ st := by
    show (if st.tok = .str then (M.set { st with strbuf := [] } >>= fun _ => Pure.pure st.strbuf) else errToken "string" : PM _) st = _
    rw [if_neg h]; rfl
  show (asString >>= fun s => jNext fl >>= fun _ => Pure.pure s) st = _
  rw [M.bind_err this]

theorem u64Range_ok {st : PSt} {v max : Nat} (h : st.tok = .u64 v) (hv : v ≤ max) : u64Range max st = .ok v st := by
  show ((match st.tok with
    | .u64 v => if v > max then errRange (showNat v ++ '>' :: showNat max) else pure v
    | _ => errToken "unsigned integer") : PM Nat) st = _
  rw [h]
  simp only
  rw [if_neg (by omega)]; rfl

theorem u64Range_err {st : PSt} {max : Nat} (h : ∀ v, st.tok = .u64 v → max < v) :
    ∃ e s, u64Range max st = .err e s := by
  have : u64Range max st = ((match st.tok with
    | .u64 v => if v > max then errRange (showNat v ++ '>' :: showNat max) else pure v
    | _ => errToken "unsigned integer") : PM Nat) st := rfl
  rw [this]
  cases e : st.tok with
  | u64 v => simp only; rw [if_pos (h v e)]; exact ⟨_, _, rfl⟩
  | _ => exact ⟨_, _, rfl⟩

/-- Closing brackets and separators are not strings. -/
theorem JPos.follow {st rest tail} (h : JPos fl st rest tail) (hf : Follow rest) :
    ∃ l, IsFollow l ∧ st.tok = jtok l := by
  obtain ⟨c, r, rfl, hc⟩ := hf
  exact ⟨c, hc, h.tok⟩

/-! ## Durations -/

theorem JTree.lexeme_tok (J : JTree) : ∃ l ls, J.lexemes = l :: ls ∧
    (jtok l = .str ↔ ∃ s, J = .str s) ∧ (jtok l = .null ↔ J = .null) ∧ (jtok l = .blockOpen ↔ ∃ xs t, J = .arr xs t) ∧
    (jtok l = .curlyOpen ↔ ∃ xs t, J = .obj xs t) ∧ (∀ b, jtok l = .bool b ↔ J = .bool b) ∧
    (∀ t : Num, jtok l = t.tok ↔ J = .num t) := by
  cases J with
  | null => exact ⟨_, _, by rw [JTree.lexemes], by simp [jtok], by simp [jtok], by simp [jtok], by simp [jtok], by simp [jtok],
      fun t => by cases t <;> simp [jtok, Num.tok]⟩
  | bool b =>
    cases b <;> exact ⟨_, _, by rw [JTree.lexemes], by simp [jtok], by simp [jtok], by simp [jtok], by simp [jtok], by simp [jtok],
      fun t => by cases t <;> simp [jtok, Num.tok]⟩
  | num t =>
    refine ⟨_, _, by rw [JTree.lexemes], ?_, ?_, ?_, ?_, ?_, fun t' => ?_⟩
    any_goals (cases t <;> simp [jtok, Num.tok]; done)
    cases t <;> cases t' <;> simp [jtok, Num.tok]
  | str s => exact ⟨_, _, by rw [JTree.lexemes], by simp [jtok], by simp [jtok], by simp [jtok], by simp [jtok], by simp [jtok],
      fun t => by cases t <;> simp [jtok, Num.tok]⟩
  | arr xs t => exact ⟨_, _, JTree.lexemes_arr xs t, by simp [jtok], by simp [jtok], by simp [jtok], by simp [jtok], by simp [jtok],
      fun t => by cases t <;> simp [jtok, Num.tok]⟩
  | obj xs t => exact ⟨_, _, JTree.lexemes_obj xs t, by simp [jtok], by simp [jtok], by simp [jtok], by simp [jtok], by simp [jtok],
      fun t => by cases t <;> simp [jtok, Num.tok]⟩

/-- What the current token says about the tree at the position. -/
theorem JPos.facts {st} {J : JTree} {rest tail} (h : JPos fl st (J.lexemes ++ rest) tail) :
    (st.tok = .str ↔ ∃ s, J = .str s) ∧ (st.tok = .null ↔ J = .null) ∧ (st.tok = .blockOpen ↔ ∃ xs t, J = .arr xs t) ∧
    (st.tok = .curlyOpen ↔ ∃ xs t, J = .obj xs t) ∧ (∀ b, st.tok = .bool b ↔ J = .bool b) ∧
    (∀ t : Num, st.tok = t.tok ↔ J = .num t) := by
  obtain ⟨l, ls, e, hl⟩ := J.lexeme_tok
  rw [e] at h
  rw [show st.tok = jtok l from h.tok]
  exact hl

theorem Dec.bind_ok_id {α : Type} (d : Dec α) : (d.bind fun a => .ok a) = d := by cases d <;> rfl

/-- A colon and a natural number. -/
theorem colonNat_agree {st v rest tail} {α : Type} (max : Nat) (g : Nat → α) (hf : Follow rest)
    (h1 : JPos fl st (.punct .colon :: (v.lexemes ++ rest)) tail) :
    Agree ((colon (jNext fl) >>= fun _ => u64Range max >>= fun u => jNext fl >>= fun _ => (pure (g u) : PM α)) st)
      ((decNat max v).bind fun u => .ok (g u)) (fun s => JPos fl s rest tail) := by
  obtain ⟨s2, e2, h2⟩ := h1.next' (by obtain ⟨l, ls, e, hl⟩ := v.lexemes_start; simp [e])
  refine Agree.step ((expectTok_ok (by exact h1.tok)).trans e2) ?_
  have herr : (∀ u, v = .num (.nat u) → max < u) → ∃ e s, u64Range max s2 = .err e s := by
    intro hv
    refine u64Range_err fun u hu => ?_
    have := ((JPos.facts (fl := fl) h2).2.2.2.2.2 (.nat u)).1 hu
    exact hv u this
  by_cases hv : ∃ u, v = .num (.nat u)
  · obtain ⟨u, rfl⟩ := hv
    by_cases hle : u ≤ max
    · simp only [JTree.lexemes, List.cons_append, List.nil_append] at h2
      obtain ⟨s3, e3, h3⟩ := h2.next' hf.ne
      rw [decNat, if_pos hle]
      refine Agree.step (u64Range_ok (v := u) (by exact h2.tok) hle) (Agree.step e3 ⟨s3, rfl, h3⟩)
    · rw [decNat, if_neg hle]
      exact Agree.fail (herr (by intro w hw; injection hw with hw; injection hw with hw; omega))
  · have : decNat max v = .err := by
      unfold decNat
      split
      · exact absurd ⟨_, rfl⟩ hv
      · rfl
    rw [this]
    exact Agree.fail (herr (by intro w hw; exact absurd ⟨w, hw⟩ hv))

theorem durItem_agree {acc st sep ys tr rest tail} {m : JTree × JTree}
    (hsep : sep = [.punct .comma] ∨ (sep = [] ∧ ys = [] ∧ tr = false))
    (h : JPos fl st ((m.1.lexemes ++ .punct .colon :: m.2.lexemes) ++
      (sep ++ (commaLexemes tr ys ++ .punct .curlyClose :: rest))) tail) :
    Agree (durItem (jNext fl) acc st) (decDurMember acc m)
      (fun s => JPos fl s (commaLexemes tr ys ++ .punct .curlyClose :: rest) tail) := by
  obtain ⟨k, v⟩ := m
  simp only [List.append_assoc, List.cons_append] at h
  by_cases hk : ∃ s, k = .str s
  · obtain ⟨key, rfl⟩ := hk
    simp only [JTree.lexemes, List.cons_append, List.nil_append] at h
    obtain ⟨s1, e1, h1⟩ := deStr_ok h (by simp)
    refine Agree.step e1 ?_
    rw [← Dec.bind_ok_id (decDurMember acc (.str key, v))]
    refine Agree.bind (Q := fun s => JPos fl s (sep ++ (commaLexemes tr ys ++ .punct .curlyClose :: rest)) tail) ?_ ?_
    · unfold durValue decDurMember
      simp only
      split
      · split
        · exact ⟨_, _, rfl⟩
        · exact colonNat_agree u64Max (fun u => (some u, acc.2)) (follow_sep hsep (.inr rfl)) h1
      · split
        · split
          · exact ⟨_, _, rfl⟩
          · exact colonNat_agree (2 ^ 32 - 1) (fun u => (acc.1, some u)) (follow_sep hsep (.inr rfl)) h1
        · exact ⟨_, _, rfl⟩
    · intro a s hs
      obtain ⟨s4, e4, h4⟩ := eat_sep (what := ", or }") hs hsep (by decide)
      exact Agree.step e4 ⟨s4, rfl, h4⟩
  · have : decDurMember acc (k, v) = .err := by
      unfold decDurMember
      split
      · rename_i key e; exact absurd ⟨key, e⟩ hk
      · rfl
    rw [this]
    exact Agree.fail (deStr_err (by rw [Ne, h.facts.1]; exact hk))

theorem deDur_reads {n : Nat} {ms trail} (hn : ms.length < n) :
    Reads fl (deDur (jNext fl) n) (.obj ms trail)
      ((decDur (some (.obj ms trail))).bind fun d => .ok (.dur d.1 d.2)) := by
  intro st rest tail hf h
  rw [JTree.lexemes_obj] at h
  simp only [List.cons_append, List.append_assoc, List.nil_append] at h
  obtain ⟨s1, e1, h1⟩ := h.next' (by simp)
  have e1' : curlyOpen (jNext fl) st = .ok () s1 := (expectTok_ok (by exact h.tok)).trans e1
  refine Agree.step e1' ?_
  have hb : ∀ {α β γ : Type} (d : Dec α) (f : α → Dec β) (g : β → Dec γ),
      (d.bind f).bind g = d.bind fun a => (f a).bind g := by intro _ _ _ d f g; cases d <;> rfl
  rw [decDur, hb]
  refine Agree.bind (whileNot_agree (lx := fun m : JTree × JTree => m.1.lexemes ++ .punct .colon :: m.2.lexemes)
    ms ?_ ?_ n hn (none, none) trail s1 h1) ?_
  · intro x _
    obtain ⟨l, ls, e, hl⟩ := x.1.lexemes_start
    exact ⟨l, ls ++ .punct .colon :: x.2.lexemes, by simp [e], hl.ne.2.2.2.1⟩
  · intro x hx acc s sep ys tr hsep hpos
    exact durItem_agree hsep hpos
  · intro acc s hs
    obtain ⟨s2, e2, h2⟩ := hs.next' hf.ne
    have e2' : curlyClose (jNext fl) s = .ok () s2 := (expectTok_ok (by exact hs.tok)).trans e2
    refine Agree.step e2' ?_
    cases acc.1 with
    | none => exact ⟨_, _, rfl⟩
    | some secs =>
      simp only
      split
      · exact ⟨_, _, rfl⟩
      · rename_i hle
        unfold durNewP
        split
        · rename_i hlt
          exact ⟨s2, rfl, h2⟩
        · rename_i hnlt
          have : acc.2.getD 0 = 1000000000 := by omega
          rw [this]
          split
          · rename_i hu
            exact ⟨s2, by simp at hu; simp, h2⟩
          · rename_i hu
            show _ = _
            simp at hu
            simp

theorem deDur_err {n st} (h : st.tok ≠ .curlyOpen) : ∃ e s, deDur (jNext fl) n st = .err e s := by
  obtain ⟨e, he⟩ := expectTok_err (nx := jNext fl) (what := "{") h
  exact ⟨e, st, M.bind_err he⟩

end NS
