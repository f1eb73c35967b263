import Verif.Lemmas.JsonSound3
import Verif.Lemmas.RonRead2
/-! `deserialize_json` reads every sequence of lexemes as what it says: basic readers. -/
namespace NS
variable {fl : FloatOps} {env : Env}

/-- The lexemes of a value: the first one can begin a value. -/
def Starts (ls : List Lexeme) : Prop := ∃ l r, ls = l :: r ∧ l.startsValue = true

theorem Starts.ne {ls rest} (h : Starts ls) : ls ++ rest ≠ [] := by
  obtain ⟨l, r, rfl, _⟩ := h; simp

theorem startsValue_ne {l : Lexeme} (h : l.startsValue = true) : jtok l ≠ .comma ∧ jtok l ≠ .colon ∧ jtok l ≠ .blockClose ∧
    jtok l ≠ .curlyClose ∧ jtok l ≠ .eof := by
  cases l with
  | punct t => cases t <;> simp [Lexeme.startsValue] at h <;> simp [jtok]
  | num t => cases t <;> simp [jtok, Num.tok]
  | word w =>
    simp only [jtok]
    split
    · simp
    · split
      · simp
      · split <;> simp
  | str s => simp [jtok]
  | eof => cases h

theorem jtok_bracket (l : Lexeme) :
    ((jtok l = .blockOpen ∨ jtok l = .curlyOpen) ↔ l.bracket = 1) ∧ ((jtok l = .blockClose ∨ jtok l = .curlyClose) ↔ l.bracket = -1) ∧
      (l.bracket = 1 ∨ l.bracket = 0 ∨ l.bracket = -1) := by
  cases l with
  | punct t => cases t <;> simp [jtok, Lexeme.bracket]
  | num t => cases t <;> simp [jtok, Num.tok, Lexeme.bracket]
  | word w =>
    simp only [jtok, Lexeme.bracket]
    split
    · simp
    · split
      · simp
      · split <;> simp
  | str s => simp [jtok, Lexeme.bracket]
  | eof => simp [jtok, Lexeme.bracket]

theorem jtok_count {s : PSt} {l} (h : s.tok = jtok l) (d : Int) :
    (if s.tok = .blockClose ∨ s.tok = .curlyClose then (if s.tok = .blockOpen ∨ s.tok = .curlyOpen then d + 1 else d) - 1
      else (if s.tok = .blockOpen ∨ s.tok = .curlyOpen then d + 1 else d)) = d + l.bracket := by
  obtain ⟨h1, h2, h3⟩ := jtok_bracket l
  rw [h]
  rcases h3 with h | h | h
  · rw [if_pos (h1.2 h), if_neg (fun g => by have := h2.1 g; omega), h]
  · rw [if_neg (fun g => by have := h2.1 g; omega), if_neg (fun g => by have := h1.1 g; omega), h]; omega
  · rw [if_pos (h2.2 h), if_neg (fun g => by have := h1.1 g; omega), h]; omega

/-- The lexer leaves no bare identifier behind. -/
theorem tokAt_known (hfl : FloatLaws fl) {txt t r sb ib} (h : TokAt (jNext fl) txt t r sb ib) : t ≠ .bareIdent := by
  rintro rfl
  obtain ⟨c, _, e⟩ := h { initSt jcol [] with cur := ⟨txt, 0, 0⟩ } rfl
  obtain ⟨l, hx, ht, _⟩ := jNext_sound' hfl e
  replace ht : Tok.bareIdent = jtok l := ht
  rcases hx.cases with rfl | ⟨t, rfl, h⟩ | (rfl | rfl | rfl) | ⟨w, rfl⟩ | ⟨t, rfl, _, _⟩
  · cases ht
  · simp only [List.mem_cons, List.not_mem_nil, or_false] at h
    rcases h with rfl | rfl | rfl | rfl | rfl | rfl <;> cases ht
  · simp [jtok] at ht
  · simp [jtok] at ht
  · simp [jtok] at ht
  · cases ht
  · cases t <;> cases ht

namespace JRead

/-- `rest` can follow the value with the lexemes `ls`: a single string is not followed by a string. -/
structure Fits (ls rest : List Lexeme) : Prop where
  ne : rest ≠ []
  str : ∀ w, ls = [.str w] → ∀ l r, rest = l :: r → l.sb = none

theorem fits {ls rest} (h : Follow rest) : Fits ls rest := by
  refine ⟨h.ne, fun w _ l r e => ?_⟩
  obtain ⟨c, r', e', hc⟩ := h
  rw [e'] at e
  injection e with e _
  subst e
  exact hc.noStr.1

theorem Fits.punct {t ls rest} (h : rest ≠ []) : Fits (.punct t :: ls) rest := ⟨h, fun w e => by simp at e⟩

/-- `rd` reads the lexemes as `a`. -/
def Reads (fl : FloatOps) {α : Type} (rd : PM α) (ls : List Lexeme) (a : α) : Prop :=
  ∀ st rest tail, Fits ls rest → JPos fl st (ls ++ rest) tail → Yields (rd st) a (fun s => JPos fl s rest tail)

theorem eat_sep {st sep xs trail close what rest tail}
    (h : JPos fl st (sep ++ (commaLexemes trail xs ++ .punct close :: rest)) tail)
    (hs : sep = [.punct .comma] ∨ (sep = [] ∧ xs = [] ∧ trail = false)) (hc : close ≠ .comma) :
    Yields (eatComma (jNext fl) close what st) () fun s => JPos fl s (commaLexemes trail xs ++ .punct close :: rest) tail := by
  rcases hs with rfl | ⟨rfl, rfl, -⟩
  · rw [eatComma_comma (by exact h.tok)]
    exact h.next' (by simp)
  · exact ⟨st, eatComma_close (by exact h.tok) hc, h⟩

theorem follow_sep {sep xs trail close rest}
    (hs : sep = [.punct .comma] ∨ (sep = [] ∧ xs = [] ∧ trail = false))
    (hc : close = .blockClose ∨ close = .curlyClose) :
    Follow (sep ++ (commaLexemes trail xs ++ .punct close :: rest)) := by
  rcases hs with rfl | ⟨rfl, rfl, -⟩
  · exact ⟨_, _, rfl, by simp [IsFollow]⟩
  · rcases hc with rfl | rfl <;> exact ⟨_, _, rfl, by simp [IsFollow]⟩

/-- The expected token is there. -/
theorem expect {st l ls tail t what} (h : JPos fl st (l :: ls) tail) (hl : jtok l = t) (hne : ls ≠ []) :
    Yields (expectTok (jNext fl) t what st) () fun s => JPos fl s ls tail := by
  rw [expectTok_ok (by rw [h.tok]; exact hl)]
  exact h.next' hne

/-- A loop over items up to the closing bracket. -/
theorem whileNot_yields {α β : Type} {close : Tok}
    {item : α → PM α} {step : α → β → α} {lx : β → List Lexeme} {tail : List Char} {rest : List Lexeme}
    (xs : List β)
    (hstart : ∀ x ∈ xs, ∃ l ls, lx x = l :: ls ∧ jtok l ≠ close)
    (hitem : ∀ x ∈ xs, ∀ acc st sep ys tr, (sep = [.punct .comma] ∨ (sep = [] ∧ ys = [] ∧ tr = false)) →
      JPos fl st (lx x ++ (sep ++ (commaLexemes tr ys ++ .punct close :: rest))) tail →
      Yields (item acc st) (step acc x) (fun s => JPos fl s (commaLexemes tr ys ++ .punct close :: rest) tail))
    (n : Nat) (hn : xs.length < n) (acc : α) (trail : Bool) (st : PSt)
    (h : JPos fl st (commaLexemes trail (xs.map lx) ++ .punct close :: rest) tail) :
    Yields (whileNot close item n acc st) (xs.foldl step acc) (fun s => JPos fl s (.punct close :: rest) tail) := by
  induction xs generalizing n acc st with
  | nil =>
    obtain ⟨n, rfl⟩ : ∃ m, n = m + 1 := ⟨n - 1, by omega⟩
    refine ⟨st, ?_, h⟩
    show (if st.tok = close then Pure.pure acc else (item acc >>= fun acc' => whileNot close item n acc') : PM α) st = _
    rw [if_pos (by exact h.tok)]
    rfl
  | cons x xs ih =>
    obtain ⟨n, rfl⟩ : ∃ m, n = m + 1 := ⟨n - 1, by omega⟩
    obtain ⟨sep, e1, e2, _, _⟩ := commaLexemes_cons trail (lx x) (xs.map lx) (.punct close :: rest)
    rw [List.map_cons, e1] at h
    obtain ⟨l, ls, el, hl⟩ := hstart x (List.mem_cons_self ..)
    have htok : st.tok ≠ close := by
      rw [el] at h
      rw [show st.tok = jtok l from h.tok]; exact hl
    show Yields ((if st.tok = close then Pure.pure acc else (item acc >>= fun acc' => whileNot close item n acc') : PM α) st) _ _
    rw [if_neg htok, List.foldl_cons]
    refine Yields.bind (hitem x (List.mem_cons_self ..) acc st sep _ trail e2 h) fun s q => ?_
    exact ih (fun y hy => hstart y (List.mem_cons_of_mem _ hy)) (fun y hy => hitem y (List.mem_cons_of_mem _ hy))
      n (by simp at hn; omega) _ s q

/-- The loop over object members. -/
theorem whileIs_yields {α β : Type}
    {item : α → PM α} {step : α → β → α} {lx : β → List Lexeme} {tail : List Char} {rest : List Lexeme}
    (xs : List β)
    (hstart : ∀ x ∈ xs, ∃ l ls, lx x = l :: ls ∧ jtok l = .str)
    (hitem : ∀ x ∈ xs, ∀ acc st sep ys tr, (sep = [.punct .comma] ∨ (sep = [] ∧ ys = [] ∧ tr = false)) →
      JPos fl st (lx x ++ (sep ++ (commaLexemes tr ys ++ .punct .curlyClose :: rest))) tail →
      Yields (item acc st) (step acc x) (fun s => JPos fl s (commaLexemes tr ys ++ .punct .curlyClose :: rest) tail))
    (n : Nat) (hn : xs.length < n) (acc : α) (trail : Bool) (st : PSt)
    (h : JPos fl st (commaLexemes trail (xs.map lx) ++ .punct .curlyClose :: rest) tail) :
    Yields (whileIs .str item n acc st) (xs.foldl step acc) (fun s => JPos fl s (.punct .curlyClose :: rest) tail) := by
  induction xs generalizing n acc st with
  | nil =>
    obtain ⟨n, rfl⟩ : ∃ m, n = m + 1 := ⟨n - 1, by omega⟩
    refine ⟨st, ?_, h⟩
    show (if st.tok = .str then (item acc >>= fun acc' => whileIs .str item n acc') else Pure.pure acc : PM α) st = _
    rw [if_neg (by rw [show st.tok = jtok (.punct .curlyClose) from h.tok]; simp [jtok])]
    rfl
  | cons x xs ih =>
    obtain ⟨n, rfl⟩ : ∃ m, n = m + 1 := ⟨n - 1, by omega⟩
    obtain ⟨sep, e1, e2, _, _⟩ := commaLexemes_cons trail (lx x) (xs.map lx) (.punct .curlyClose :: rest)
    rw [List.map_cons, e1] at h
    obtain ⟨l, ls, el, hl⟩ := hstart x (List.mem_cons_self ..)
    have htok : st.tok = .str := by
      rw [el] at h
      rw [show st.tok = jtok l from h.tok]; exact hl
    show Yields ((if st.tok = .str then (item acc >>= fun acc' => whileIs .str item n acc') else Pure.pure acc : PM α) st) _ _
    rw [if_pos htok, List.foldl_cons]
    refine Yields.bind (hitem x (List.mem_cons_self ..) acc st sep _ trail e2 h) fun s q => ?_
    exact ih (fun y hy => hstart y (List.mem_cons_of_mem _ hy)) (fun y hy => hitem y (List.mem_cons_of_mem _ hy))
      n (by simp at hn; omega) _ s q

theorem deSeq_reads {n : Nat} {rd : PM Val} {add trail} (ps : List (List Lexeme × Val)) (hst : ∀ p ∈ ps, Starts p.1)
    (hrd : ∀ p ∈ ps, Reads fl rd p.1 p.2) (hn : ps.length < n) :
    Reads fl (deSeq (jNext fl) n rd add) (inBlocks trail (ps.map (·.1))) (.seq ((ps.map (·.2)).foldl add [])) := by
  intro st rest tail hf h
  unfold inBlocks at h
  simp only [List.cons_append, List.append_assoc, List.nil_append] at h
  refine Yields.bind (expect h rfl (by simp)) fun s1 h1 => ?_
  refine Yields.bind (whileNot_yields (lx := (·.1)) (step := fun acc (p : List Lexeme × Val) => add acc p.2) ps ?_ ?_ n hn [] trail s1 h1) ?_
  · intro x hx
    obtain ⟨l, ls, e, hl⟩ := hst x hx
    exact ⟨l, ls, e, (startsValue_ne hl).2.2.1⟩
  · intro x hx acc s sep ys tr hsep hpos
    refine Yields.bind (hrd x hx s _ tail (fits (follow_sep hsep (.inl rfl))) hpos) fun s' hs' => ?_
    exact Yields.bind (eat_sep hs' hsep (by decide)) fun s2 h2 => .pure h2
  · intro s hs
    refine Yields.bind (expect hs rfl hf.ne) fun s2 h2 => ?_
    rw [List.foldl_map]
    exact .pure h2

theorem deMap_reads {n : Nat} {rk rv : PM Val} {add trail} (ps : List ((List Lexeme × Val) × (List Lexeme × Val)))
    (hsk : ∀ p ∈ ps, Starts p.1.1) (hsv : ∀ p ∈ ps, Starts p.2.1)
    (hk : ∀ p ∈ ps, Reads fl rk p.1.1 p.1.2) (hv : ∀ p ∈ ps, Reads fl rv p.2.1 p.2.2) (hn : ps.length < n) :
    Reads fl (deMap (jNext fl) n rk rv add) (inCurlies trail (ps.map fun p => p.1.1 ++ .punct .colon :: p.2.1))
      (.seq ((ps.map fun p => Val.entry p.1.2 p.2.2).foldl add [])) := by
  intro st rest tail hf h
  unfold inCurlies at h
  simp only [List.cons_append, List.append_assoc, List.nil_append] at h
  refine Yields.bind (expect h rfl (by simp)) fun s1 h1 => ?_
  refine Yields.bind (whileNot_yields
    (lx := fun p : (List Lexeme × Val) × (List Lexeme × Val) => p.1.1 ++ .punct .colon :: p.2.1)
    (step := fun acc (p : (List Lexeme × Val) × (List Lexeme × Val)) => add acc (.entry p.1.2 p.2.2)) ps ?_ ?_ n hn [] trail s1 h1) ?_
  · intro x hx
    obtain ⟨l, ls, e, hl⟩ := hsk x hx
    exact ⟨l, ls ++ .punct .colon :: x.2.1, by simp [e], (startsValue_ne hl).2.2.2.1⟩
  · intro x hx acc s sep ys tr hsep hpos
    simp only [List.append_assoc, List.cons_append] at hpos
    refine Yields.bind (hk x hx s _ tail (fits ⟨_, _, rfl, by simp [IsFollow]⟩) hpos) fun s' hs' => ?_
    refine Yields.bind (expect hs' rfl (hsv x hx).ne) fun s2 h2 => ?_
    refine Yields.bind (hv x hx s2 _ tail (fits (follow_sep hsep (.inr rfl))) h2) fun s3 hs3 => ?_
    exact Yields.bind (eat_sep hs3 hsep (by decide)) fun s4 h4 => .pure h4
  · intro s hs
    refine Yields.bind (expect hs rfl hf.ne) fun s2 h2 => ?_
    rw [List.foldl_map]
    exact .pure h2

/-! ## Strings and numbers -/

theorem deStr_ok {st s ls tail} (h : JPos fl st (.str s :: ls) tail) (hne : ls ≠ []) :
    Yields (deStr (jNext fl) st) s fun st' => JPos fl st' ls tail := by
  obtain ⟨s1, e1, h1⟩ := h.restart hne (st0 := { st with strbuf := [] }) rfl
  refine ⟨s1, ?_, h1⟩
  have ht : st.tok = .str := h.tok
  have hs : st.strbuf = s := At'.sb h s rfl
  have ea : asString st = .ok s { st with strbuf := [] } := by
    show (if st.tok = .str then (M.set { st with strbuf := [] } >>= fun _ => Pure.pure st.strbuf) else errToken "string" : PM _) st = _
    rw [if_pos ht, hs]; rfl
  show (asString >>= fun s => jNext fl >>= fun _ => Pure.pure s) st = _
  rw [M.bind_ok ea, M.bind_ok e1]; rfl

/-- A string: it is still in the buffer after reading on, unless a string follows. -/
theorem string_ok {st w l ls tail what} (h : JPos fl st (.str w :: l :: ls) tail) (hl : l.sb = none) :
    Yields (expectTok (jNext fl) .str what st) () fun s => JPos fl s (l :: ls) tail ∧ s.strbuf = w := by
  rw [expectTok_ok (show st.tok = .str from h.tok)]
  obtain ⟨s, e, h1, h3, _⟩ := h.next
  refine ⟨s, e, h1, ?_⟩
  rw [h3, hl]
  exact At'.sb h w rfl

theorem deInt_ok {st k t i ls tail} (h : JPos fl st (.num t :: ls) tail) (hne : ls ≠ []) (hk : k.textual = true)
    (ht : t.intVal = some i) (hi : k.inRange i) (hu : k.signed = false → ∃ n, t = .nat n) :
    Yields (deInt (jNext fl) k st) (.int i) fun s => JPos fl s ls tail := by
  have htok : st.tok = t.tok := h.tok
  have hrt : castInt k i = i := ofTwos_toTwos k i hi
  obtain ⟨h1, h2⟩ := hi
  have hnx := h.next' hne
  unfold deInt
  rw [if_neg (by simp [hk])]
  cases hs : k.signed with
  | true =>
    rw [if_pos rfl]
    have hr : i64Range k.lo k.hi st = .ok i st := by
      show ((match st.tok with
        | .i64 v => if v < k.lo then errRange (showInt v ++ '<' :: showInt k.lo) else Pure.pure v
        | .u64 v =>
          if u64AsI64 v > k.hi then errRange (showNat v ++ '>' :: showInt k.hi) else Pure.pure (u64AsI64 v)
        | _ => errToken "signed integer") : PM Int) st = _
      rw [htok]
      cases t with
      | float x => cases ht
      | neg j =>
        injection ht with ht; subst ht
        simp only [Num.tok]
        rw [if_neg (by omega)]; rfl
      | nat j =>
        injection ht with ht; subst ht
        simp only [Num.tok]
        have hb : (j : Int) < 2 ^ 63 := by
          cases k <;> simp [IntKind.textual, IntKind.signed, IntKind.hi, IntKind.bytes] at hk hs h2 ⊢ <;> omega
        have hu : u64AsI64 j = j := by unfold u64AsI64; rw [if_pos (by omega)]
        rw [hu, if_neg (by omega)]; rfl
    refine Yields.bind (a := i) ⟨st, hr, rfl⟩ fun s hs => ?_
    subst hs
    refine Yields.bind hnx fun s hs => ?_
    rw [hrt]; exact .pure hs
  | false =>
    rw [if_neg (by simp)]
    obtain ⟨n, rfl⟩ := hu hs
    injection ht with ht; subst ht
    refine Yields.bind (a := n) ⟨st, u64Range_ok htok (by omega), rfl⟩ fun s hs => ?_
    subst hs
    refine Yields.bind hnx fun s hs => ?_
    rw [hrt]; exact .pure hs

theorem asF64_ok {st t ls tail} (h : JPos fl st (.num t :: ls) tail) : asF64 fl st = .ok (t.asF64 fl) st := by
  have htok : st.tok = t.tok := h.tok
  show ((match st.tok with
    | .i64 v => Pure.pure (fl.ofI64 v)
    | .u64 v => Pure.pure (fl.ofU64 v)
    | .f64 x => Pure.pure x
    | _ => errToken "floating point") : PM (BitVec 64)) st = _
  rw [htok]
  cases t <;> rfl

theorem deInt_wrap_ok {st k i ls tail} {n : Nat} (h : JPos fl st (.num (.nat n) :: ls) tail) (hne : ls ≠ []) (hk : k.textual = true)
    (hs : k.signed = true) (h1 : 2 ^ 63 ≤ n) (h2 : n < 2 ^ 64) (hi : k.inRange i)
    (hm : i % 2 ^ (8 * k.bytes) = (n : Int) % 2 ^ (8 * k.bytes)) :
    Yields (deInt (jNext fl) k st) (.int i) fun s => JPos fl s ls tail := by
  have htok : st.tok = .u64 n := h.tok
  have hnx := h.next' hne
  have hc := (decInt_wrap k hk hs n i).2 ⟨hi, hm⟩
  have h0 : (0 : Int) ≤ k.hi := by cases k <;> decide
  have hu : u64AsI64 n = (n : Int) - 2 ^ 64 := by unfold u64AsI64; rw [if_neg (by omega)]
  unfold deInt
  rw [if_neg (by simp [hk]), if_pos hs]
  refine Yields.bind (a := (n : Int) - 2 ^ 64) (Q := fun s => s = st) ⟨st, ?_, rfl⟩ fun s hs => ?_
  · show ((match st.tok with
      | .i64 v => if v < k.lo then errRange (showInt v ++ '<' :: showInt k.lo) else Pure.pure v
      | .u64 v =>
        if u64AsI64 v > k.hi then errRange (showNat v ++ '>' :: showInt k.hi) else Pure.pure (u64AsI64 v)
      | _ => errToken "signed integer") : PM Int) st = _
    rw [htok]
    simp only [hu]
    rw [if_neg (by omega)]; rfl
  · subst hs
    refine Yields.bind hnx fun s hs => ?_
    rw [← hc]; exact .pure hs

/-! ## Durations -/

theorem durItem_ok {st ks t sep ys tr rest tail} {acc acc' : Option Nat × Option Nat} {max : Nat}
    (hsep : sep = [.punct .comma] ∨ (sep = [] ∧ ys = [] ∧ tr = false))
    (h : JPos fl st (.str ks :: .punct .colon :: .num (.nat t) :: (sep ++ (commaLexemes tr ys ++ .punct .curlyClose :: rest))) tail)
    (ht : t ≤ max)
    (hv : ∀ s, durValue (jNext fl) acc ks s = (colon (jNext fl) >>= fun _ => u64Range max >>= fun v => jNext fl >>= fun _ =>
      Pure.pure (if ks = ['s', 'e', 'c', 's'] then (some v, acc.2) else (acc.1, some v))) s)
    (he : acc' = if ks = ['s', 'e', 'c', 's'] then (some t, acc.2) else (acc.1, some t)) :
    Yields (durItem (jNext fl) acc st) acc' fun s => JPos fl s (commaLexemes tr ys ++ .punct .curlyClose :: rest) tail := by
  refine Yields.bind (deStr_ok h (by simp)) fun s1 h1 => ?_
  have : Yields (durValue (jNext fl) acc ks s1) acc' fun s =>
      JPos fl s (sep ++ (commaLexemes tr ys ++ .punct .curlyClose :: rest)) tail := by
    rw [hv]
    refine Yields.bind (expect h1 rfl (by simp)) fun s2 h2 => ?_
    refine Yields.bind (a := t) ⟨s2, u64Range_ok h2.tok ht, rfl⟩ fun s hs => ?_
    subst hs
    refine Yields.bind (h2.next' (by rcases hsep with rfl | ⟨rfl, _⟩ <;> simp)) fun s3 h3 => ?_
    rw [he]
    exact .pure h3
  refine this.bind fun s h => ?_
  exact Yields.bind (eat_sep h hsep (by decide)) fun s2 h2 => .pure h2

theorem deDur_ok {n ms tr s ns} (hm : DurLexemes ms s ns) (hn : ns ≤ 1000000000) (hsn : s + ns / 1000000000 ≤ u64Max) (hf : 3 ≤ n) :
    Reads fl (deDur (jNext fl) n) (inCurlies tr ms) (.dur (s + ns / 1000000000) (ns % 1000000000)) := by
  intro st rest tail hfo h
  unfold inCurlies at h
  simp only [List.cons_append, List.append_assoc, List.nil_append] at h
  refine Yields.bind (expect h rfl (by simp)) fun s1 h1 => ?_
  have hn1 : ns ≤ 2 ^ 32 - 1 := by omega
  have hs : s ≤ u64Max := by omega
  have fin : ∀ (o : Option Nat) (s2 : PSt), (o = some ns ∨ (o = none ∧ ns = 0)) →
      JPos fl s2 (.punct .curlyClose :: rest) tail →
      Yields ((curlyClose (jNext fl) >>= fun _ =>
        match ((some s, o) : Option Nat × Option Nat).1 with
        | none => errParse "Duration must have secs field".toList
        | some secs =>
          if o.getD 0 > 1000000000 then errRange "Duration nanos must be at most 1,000,000,000".toList
          else durNewP secs (o.getD 0)) s2) (.dur (s + ns / 1000000000) (ns % 1000000000)) fun s => JPos fl s rest tail := by
    intro o s2 ho h2
    refine Yields.bind (expect h2 rfl hfo.ne) fun s3 h3 => ?_
    have e : o.getD 0 = ns := by rcases ho with rfl | ⟨rfl, rfl⟩ <;> rfl
    simp only [e]
    rw [if_neg (by omega)]
    refine ⟨s3, ?_, h3⟩
    unfold durNewP
    by_cases h9 : ns < 1000000000
    · rw [if_pos h9, show ns / 1000000000 = 0 by omega, show ns % 1000000000 = ns by omega]; rfl
    · rw [if_neg h9, if_pos hsn]
  have dS : ∀ (acc : Option Nat × Option Nat), acc.1 = none → ∀ st, durValue (jNext fl) acc ['s', 'e', 'c', 's'] st =
      (colon (jNext fl) >>= fun _ => u64Range u64Max >>= fun v => jNext fl >>= fun _ =>
      Pure.pure (if ['s', 'e', 'c', 's'] = ['s', 'e', 'c', 's'] then (some v, acc.2) else (acc.1, some v))) st := by
    intro acc h st
    unfold durValue
    simp [h]
  have dN : ∀ (acc : Option Nat × Option Nat), acc.2 = none → ∀ st, durValue (jNext fl) acc ['n', 'a', 'n', 'o', 's'] st =
      (colon (jNext fl) >>= fun _ => u64Range (2 ^ 32 - 1) >>= fun v => jNext fl >>= fun _ =>
      Pure.pure (if ['n', 'a', 'n', 'o', 's'] = ['s', 'e', 'c', 's'] then (some v, acc.2) else (acc.1, some v))) st := by
    intro acc h st
    unfold durValue
    simp [h]
  have close : ∀ (k : Nat) acc s2, JPos fl s2 (.punct .curlyClose :: rest) tail →
      whileNot .curlyClose (durItem (jNext fl)) (k + 1) acc s2 = .ok acc s2 := by
    intro k acc s2 h2
    show (if s2.tok = .curlyClose then Pure.pure acc else (durItem (jNext fl) acc >>= fun acc' => whileNot .curlyClose (durItem (jNext fl)) k acc') : PM _) s2 = _
    rw [if_pos (by exact h2.tok)]
    rfl
  have step : ∀ (k : Nat) acc (s2 : PSt) a Q, s2.tok = .str → Yields ((durItem (jNext fl) acc >>= fun acc' => whileNot .curlyClose (durItem (jNext fl)) k acc') s2) a Q →
      Yields (whileNot .curlyClose (durItem (jNext fl)) (k + 1) acc s2) a Q := by
    intro k acc s2 a Q h2 hy
    show Yields ((if s2.tok = .curlyClose then Pure.pure acc else (durItem (jNext fl) acc >>= fun acc' => whileNot .curlyClose (durItem (jNext fl)) k acc') : PM _) s2) _ _
    rw [if_neg (by rw [h2]; simp)]
    exact hy
  obtain ⟨n, rfl⟩ : ∃ m, n = m + 1 + 1 + 1 := ⟨n - 3, by omega⟩
  rcases hm with rfl | rfl | ⟨rfl, h0⟩
  · obtain ⟨sep, e1, e2, _, _⟩ := commaLexemes_cons tr [.str ['s', 'e', 'c', 's'], .punct .colon, .num (.nat s)]
      [[.str ['n', 'a', 'n', 'o', 's'], .punct .colon, .num (.nat ns)]] (.punct .curlyClose :: rest)
    rw [e1] at h1
    refine Yields.bind (a := (some s, some ns)) (Q := fun s => JPos fl s (.punct .curlyClose :: rest) tail) ?_ (fun s2 h2 => fin _ s2 (.inl rfl) h2)
    refine step _ _ _ _ _ h1.tok ?_
    refine Yields.bind (durItem_ok (acc' := (some s, none)) e2 h1 hs (dS _ rfl) rfl) fun s2 h2 => ?_
    obtain ⟨sep', e1', e2', _, _⟩ := commaLexemes_cons tr [.str ['n', 'a', 'n', 'o', 's'], .punct .colon, .num (.nat ns)]
      [] (.punct .curlyClose :: rest)
    rw [e1'] at h2
    refine step _ _ _ _ _ h2.tok ?_
    refine Yields.bind (durItem_ok (acc' := (some s, some ns)) e2' h2 hn1 (dN _ rfl) rfl) fun s3 h3 => ?_
    exact ⟨s3, close _ _ _ h3, h3⟩
  · obtain ⟨sep, e1, e2, _, _⟩ := commaLexemes_cons tr [.str ['n', 'a', 'n', 'o', 's'], .punct .colon, .num (.nat ns)]
      [[.str ['s', 'e', 'c', 's'], .punct .colon, .num (.nat s)]] (.punct .curlyClose :: rest)
    rw [e1] at h1
    refine Yields.bind (a := (some s, some ns)) (Q := fun s => JPos fl s (.punct .curlyClose :: rest) tail) ?_ (fun s2 h2 => fin _ s2 (.inl rfl) h2)
    refine step _ _ _ _ _ h1.tok ?_
    refine Yields.bind (durItem_ok (acc' := (none, some ns)) e2 h1 hn1 (dN _ rfl) rfl) fun s2 h2 => ?_
    obtain ⟨sep', e1', e2', _, _⟩ := commaLexemes_cons tr [.str ['s', 'e', 'c', 's'], .punct .colon, .num (.nat s)]
      [] (.punct .curlyClose :: rest)
    rw [e1'] at h2
    refine step _ _ _ _ _ h2.tok ?_
    refine Yields.bind (durItem_ok (acc' := (some s, some ns)) e2' h2 hs (dS _ rfl) rfl) fun s3 h3 => ?_
    exact ⟨s3, close _ _ _ h3, h3⟩
  · refine Yields.bind (a := (some s, none)) (Q := fun s => JPos fl s (.punct .curlyClose :: rest) tail) ?_ (fun s2 h2 => fin _ s2 (.inr ⟨rfl, h0⟩) h2)
    obtain ⟨sep', e1', e2', _, _⟩ := commaLexemes_cons tr [.str ['s', 'e', 'c', 's'], .punct .colon, .num (.nat s)]
      [] (.punct .curlyClose :: rest)
    rw [e1'] at h1
    refine step _ _ _ _ _ h1.tok ?_
    refine Yields.bind (durItem_ok (acc' := (some s, none)) e2' h1 hs (dS _ rfl) rfl) fun s3 h3 => ?_
    exact ⟨s3, close _ _ _ h3, h3⟩

end JRead
end NS
