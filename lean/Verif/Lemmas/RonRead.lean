import Verif.Lemmas.RonLex
import Verif.Lemmas.JsonMembers
import Verif.Spec.RonMeans
/-! `deserialize_ron` reads every text of a RON value as what it means. -/
namespace NS
variable {fl : FloatOps} {env : Env}

/-- The computation succeeds with `a`, and `Q` holds afterwards. -/
def Yields {α : Type} (r : Out PErr PSt α) (a : α) (Q : PSt → Prop) : Prop := ∃ s, r = .ok a s ∧ Q s

theorem Yields.bind {α β : Type} {x : PM α} {f : α → PM β} {a : α} {b : β} {st : PSt} {Q Q' : PSt → Prop}
    (h : Yields (x st) a Q) (h' : ∀ s, Q s → Yields (f a s) b Q') : Yields ((x >>= f) st) b Q' := by
  obtain ⟨s, e, q⟩ := h
  rw [M.bind_ok e]
  exact h' s q

theorem Yields.get {β : Type} {f : PSt → PM β} {b : β} {st : PSt} {Q : PSt → Prop}
    (h : Yields (f st st) b Q) : Yields (((M.get : PM PSt) >>= f) st) b Q := h

theorem Yields.pure {α : Type} {a : α} {st : PSt} {Q : PSt → Prop} (h : Q st) : Yields ((Pure.pure a : PM α) st) a Q :=
  ⟨st, rfl, h⟩

theorem Yields.map {α β : Type} {x : PM α} {f : α → β} {a : α} {st : PSt} {Q : PSt → Prop}
    (h : Yields (x st) a Q) : Yields ((x >>= fun a => (Pure.pure (f a) : PM β)) st) (f a) Q :=
  h.bind fun _ q => .pure q

/-- Position in a RON stream. -/
abbrev RPos (fl : FloatOps) := Pos (rNext fl) rtok

namespace Ron

/-- Lexemes that can follow a value. -/
def IsFollow (l : Lexeme) : Prop :=
  l = .punct .comma ∨ l = .punct .colon ∨ l = .punct .blockClose ∨ l = .punct .curlyClose ∨
    l = .punct .parenClose ∨ l = .eof

/-- A continuation after a value. -/
def Follow (rest : List Lexeme) : Prop := ∃ c r, rest = c :: r ∧ IsFollow c

theorem Follow.ne {rest} (h : Follow rest) : rest ≠ [] := by
  obtain ⟨c, r, rfl, _⟩ := h; simp

/-- First lexemes of values. -/
def IsStart (l : Lexeme) : Prop :=
  (∃ w, l = .word w) ∨ (∃ t, l = .num t) ∨ (∃ s, l = .str s) ∨ l = .punct .blockOpen ∨ l = .punct .curlyOpen ∨
    l = .punct .parenOpen

theorem start (x : RTree) : ∃ l ls, x.lexemes = l :: ls ∧ IsStart l := by
  cases x with
  | word w => exact ⟨_, _, by rw [RTree.lexemes], .inl ⟨w, rfl⟩⟩
  | num t => exact ⟨_, _, by rw [RTree.lexemes], by simp [IsStart]⟩
  | str t => exact ⟨_, _, by rw [RTree.lexemes], by simp [IsStart]⟩
  | list xs tr => exact ⟨_, _, RTree.lexemes_list xs tr, by simp [IsStart]⟩
  | tuple xs tr => exact ⟨_, _, RTree.lexemes_tuple xs tr, by simp [IsStart]⟩
  | fields xs tr => exact ⟨_, _, RTree.lexemes_fields xs tr, by simp [IsStart]⟩
  | map xs tr => exact ⟨_, _, RTree.lexemes_map xs tr, by simp [IsStart]⟩
  | ctor w b => exact ⟨_, _, RTree.lexemes_ctor w b, by simp [IsStart]⟩

theorem IsStart.ne {l : Lexeme} (h : IsStart l) : rtok l ≠ .comma ∧ rtok l ≠ .colon ∧ rtok l ≠ .blockClose ∧
    rtok l ≠ .curlyClose ∧ rtok l ≠ .parenClose ∧ rtok l ≠ .eof := by
  rcases h with ⟨w, rfl⟩ | ⟨t, rfl⟩ | ⟨s, rfl⟩ | rfl | rfl | rfl
  · simp only [rtok]
    split
    · simp
    · split <;> simp
  · cases t <;> simp [rtok, Num.tok]
  all_goals simp [rtok]

theorem IsFollow.ib {l : Lexeme} (h : IsFollow l) : l.ib = none ∧ l.sb = none := by
  rcases h with rfl | rfl | rfl | rfl | rfl | rfl <;> simp [Lexeme.ib, Lexeme.sb]

/-- `rest` can follow the value with the lexemes `ls`: a single word is not followed by a word. -/
structure Fits (ls rest : List Lexeme) : Prop where
  ne : rest ≠ []
  word : ∀ w, ls = [.word w] → ∀ l r, rest = l :: r → l.ib = none

theorem Follow.fits {ls rest} (h : Follow rest) : Fits ls rest := by
  refine ⟨h.ne, fun w _ l r e => ?_⟩
  obtain ⟨c, r', e', hc⟩ := h
  rw [e'] at e
  injection e with e _
  subst e
  exact hc.ib.1

theorem Fits.punct {t ls rest} (h : rest ≠ []) : Fits (.punct t :: ls) rest := ⟨h, fun w e => by simp at e⟩

/-- `rd` reads the lexemes as `a`. -/
def Reads (fl : FloatOps) {α : Type} (rd : PM α) (ls : List Lexeme) (a : α) : Prop :=
  ∀ st rest tail, Fits ls rest → RPos fl st (ls ++ rest) tail → Yields (rd st) a (fun s => RPos fl s rest tail)

theorem eat_sep {st sep xs trail close what rest tail}
    (h : RPos fl st (sep ++ (commaLexemes trail xs ++ .punct close :: rest)) tail)
    (hs : sep = [.punct .comma] ∨ (sep = [] ∧ xs = [] ∧ trail = false)) (hc : close ≠ .comma) :
    Yields (eatComma (rNext fl) close what st) () fun s => RPos fl s (commaLexemes trail xs ++ .punct close :: rest) tail := by
  rcases hs with rfl | ⟨rfl, rfl, -⟩
  · rw [eatComma_comma (by exact h.tok)]
    exact h.next' (by simp)
  · exact ⟨st, eatComma_close (by exact h.tok) hc, h⟩

theorem follow_sep {sep xs trail close rest}
    (hs : sep = [.punct .comma] ∨ (sep = [] ∧ xs = [] ∧ trail = false))
    (hc : close = .blockClose ∨ close = .curlyClose ∨ close = .parenClose) :
    Follow (sep ++ (commaLexemes trail xs ++ .punct close :: rest)) := by
  rcases hs with rfl | ⟨rfl, rfl, -⟩
  · exact ⟨_, _, rfl, .inl rfl⟩
  · rcases hc with rfl | rfl | rfl <;> exact ⟨_, _, rfl, by simp [IsFollow]⟩

/-- The expected token is there. -/
theorem expect {st l ls tail t what} (h : RPos fl st (l :: ls) tail) (hl : rtok l = t) (hne : ls ≠ []) :
    Yields (expectTok (rNext fl) t what st) () fun s => RPos fl s ls tail := by
  rw [expectTok_ok (by rw [h.tok]; exact hl)]
  exact h.next' hne

/-- A loop over items up to the closing bracket. -/
theorem whileNot_yields {α β : Type} {close : Tok}
    {item : α → PM α} {step : α → β → α} {lx : β → List Lexeme} {tail : List Char} {rest : List Lexeme}
    (xs : List β)
    (hstart : ∀ x ∈ xs, ∃ l ls, lx x = l :: ls ∧ rtok l ≠ close)
    (hitem : ∀ x ∈ xs, ∀ acc st sep ys tr, (sep = [.punct .comma] ∨ (sep = [] ∧ ys = [] ∧ tr = false)) →
      RPos fl st (lx x ++ (sep ++ (commaLexemes tr ys ++ .punct close :: rest))) tail →
      Yields (item acc st) (step acc x) (fun s => RPos fl s (commaLexemes tr ys ++ .punct close :: rest) tail))
    (n : Nat) (hn : xs.length < n) (acc : α) (trail : Bool) (st : PSt)
    (h : RPos fl st (commaLexemes trail (xs.map lx) ++ .punct close :: rest) tail) :
    Yields (whileNot close item n acc st) (xs.foldl step acc) (fun s => RPos fl s (.punct close :: rest) tail) := by
  induction xs generalizing n acc st with
  | nil =>
    obtain ⟨n, rfl⟩ : ∃ m, n = m + 1 := ⟨n - 1, by omega⟩
    refine ⟨st, ?_, h⟩
    show (if st.tok = close then Pure.pure acc else (item acc >>= fun acc' => whileNot close item n acc') : PM α) st = _
    rw [if_pos (by exact h.tok)]
    rfl
  | cons x xs ih =>
    obtain ⟨n, rfl⟩ : ∃ m, n = m + 1 := ⟨n - 1, by omega⟩
    obtain ⟨sep, e1, e2, _, _⟩ := commaLexemes_cons trail (lx x) (xs.map lx) (.punct close :: rest)
    rw [List.map_cons, e1] at h
    obtain ⟨l, ls, el, hl⟩ := hstart x (List.mem_cons_self ..)
    have htok : st.tok ≠ close := by
      rw [el] at h
      rw [show st.tok = rtok l from h.tok]; exact hl
    show Yields ((if st.tok = close then Pure.pure acc else (item acc >>= fun acc' => whileNot close item n acc') : PM α) st) _ _
    rw [if_neg htok, List.foldl_cons]
    refine Yields.bind (hitem x (List.mem_cons_self ..) acc st sep _ trail e2 h) fun s q => ?_
    exact ih (fun y hy => hstart y (List.mem_cons_of_mem _ hy)) (fun y hy => hitem y (List.mem_cons_of_mem _ hy))
      n (by simp at hn; omega) _ s q

/-- The loop over struct members. -/
theorem whileIs_yields {α β : Type}
    {item : α → PM α} {step : α → β → α} {lx : β → List Lexeme} {tail : List Char} {rest : List Lexeme}
    (xs : List β)
    (hstart : ∀ x ∈ xs, ∃ l ls, lx x = l :: ls ∧ rtok l = .ident)
    (hitem : ∀ x ∈ xs, ∀ acc st sep ys tr, (sep = [.punct .comma] ∨ (sep = [] ∧ ys = [] ∧ tr = false)) →
      RPos fl st (lx x ++ (sep ++ (commaLexemes tr ys ++ .punct .parenClose :: rest))) tail →
      Yields (item acc st) (step acc x) (fun s => RPos fl s (commaLexemes tr ys ++ .punct .parenClose :: rest) tail))
    (n : Nat) (hn : xs.length < n) (acc : α) (trail : Bool) (st : PSt)
    (h : RPos fl st (commaLexemes trail (xs.map lx) ++ .punct .parenClose :: rest) tail) :
    Yields (whileIs .ident item n acc st) (xs.foldl step acc) (fun s => RPos fl s (.punct .parenClose :: rest) tail) := by
  induction xs generalizing n acc st with
  | nil =>
    obtain ⟨n, rfl⟩ : ∃ m, n = m + 1 := ⟨n - 1, by omega⟩
    refine ⟨st, ?_, h⟩
    show (if st.tok = .ident then (item acc >>= fun acc' => whileIs .ident item n acc') else Pure.pure acc : PM α) st = _
    rw [if_neg (by rw [show st.tok = rtok (.punct .parenClose) from h.tok]; simp [rtok])]
    rfl
  | cons x xs ih =>
    obtain ⟨n, rfl⟩ : ∃ m, n = m + 1 := ⟨n - 1, by omega⟩
    obtain ⟨sep, e1, e2, _, _⟩ := commaLexemes_cons trail (lx x) (xs.map lx) (.punct .parenClose :: rest)
    rw [List.map_cons, e1] at h
    obtain ⟨l, ls, el, hl⟩ := hstart x (List.mem_cons_self ..)
    have htok : st.tok = .ident := by
      rw [el] at h
      rw [show st.tok = rtok l from h.tok]; exact hl
    show Yields ((if st.tok = .ident then (item acc >>= fun acc' => whileIs .ident item n acc') else Pure.pure acc : PM α) st) _ _
    rw [if_pos htok, List.foldl_cons]
    refine Yields.bind (hitem x (List.mem_cons_self ..) acc st sep _ trail e2 h) fun s q => ?_
    exact ih (fun y hy => hstart y (List.mem_cons_of_mem _ hy)) (fun y hy => hitem y (List.mem_cons_of_mem _ hy))
      n (by simp at hn; omega) _ s q

theorem start_ne (x : RTree) (rest : List Lexeme) : x.lexemes ++ rest ≠ [] := by
  obtain ⟨l, ls, e, _⟩ := start x
  rw [e]; simp

theorem deSeq_reads {n : Nat} {rd : PM Val} {add trail} (ps : List (RTree × Val))
    (hrd : ∀ p ∈ ps, Reads fl rd p.1.lexemes p.2) (hn : ps.length < n) :
    Reads fl (deSeq (rNext fl) n rd add) (RTree.list (ps.map (·.1)) trail).lexemes (.seq ((ps.map (·.2)).foldl add [])) := by
  intro st rest tail hf h
  rw [RTree.lexemes_list] at h
  simp only [List.cons_append, List.append_assoc, List.nil_append, List.map_map] at h
  refine Yields.bind (expect h rfl (by simp)) fun s1 h1 => ?_
  refine Yields.bind (whileNot_yields (lx := RTree.lexemes ∘ (·.1)) (step := fun acc (p : RTree × Val) => add acc p.2) ps ?_ ?_ n hn [] trail s1 h1) ?_
  · intro x _
    obtain ⟨l, ls, e, hl⟩ := start x.1
    exact ⟨l, ls, e, hl.ne.2.2.1⟩
  · intro x hx acc s sep ys tr hsep hpos
    refine Yields.bind (hrd x hx s _ tail (follow_sep hsep (.inl rfl)).fits hpos) fun s' hs' => ?_
    exact Yields.bind (eat_sep hs' hsep (by decide)) fun s2 h2 => .pure h2
  · intro s hs
    refine Yields.bind (expect hs rfl hf.ne) fun s2 h2 => ?_
    rw [List.foldl_map]
    exact .pure h2

theorem deMap_reads {n : Nat} {rk rv : PM Val} {add trail} (ps : List ((RTree × Val) × (RTree × Val)))
    (hk : ∀ p ∈ ps, Reads fl rk p.1.1.lexemes p.1.2) (hv : ∀ p ∈ ps, Reads fl rv p.2.1.lexemes p.2.2) (hn : ps.length < n) :
    Reads fl (deMap (rNext fl) n rk rv add) (RTree.map (ps.map fun p => (p.1.1, p.2.1)) trail).lexemes
      (.seq ((ps.map fun p => Val.entry p.1.2 p.2.2).foldl add [])) := by
  intro st rest tail hf h
  rw [RTree.lexemes_map] at h
  simp only [List.cons_append, List.append_assoc, List.nil_append, List.map_map] at h
  refine Yields.bind (expect h rfl (by simp)) fun s1 h1 => ?_
  refine Yields.bind (whileNot_yields
    (lx := (fun m : RTree × RTree => m.1.lexemes ++ .punct .colon :: m.2.lexemes) ∘ fun p : (RTree × Val) × (RTree × Val) => (p.1.1, p.2.1))
    (step := fun acc (p : (RTree × Val) × (RTree × Val)) => add acc (.entry p.1.2 p.2.2)) ps ?_ ?_ n hn [] trail s1 h1) ?_
  · intro x _
    obtain ⟨l, ls, e, hl⟩ := start x.1.1
    exact ⟨l, ls ++ .punct .colon :: x.2.1.lexemes, by simp [e], hl.ne.2.2.2.1⟩
  · intro x hx acc s sep ys tr hsep hpos
    simp only [Function.comp, List.append_assoc, List.cons_append] at hpos
    refine Yields.bind (hk x hx s _ tail (Follow.fits ⟨_, _, rfl, by simp [IsFollow]⟩) hpos) fun s' hs' => ?_
    refine Yields.bind (expect hs' rfl (start_ne _ _)) fun s2 h2 => ?_
    refine Yields.bind (hv x hx s2 _ tail (follow_sep hsep (.inr (.inl rfl))).fits h2) fun s3 hs3 => ?_
    exact Yields.bind (eat_sep hs3 hsep (by decide)) fun s4 h4 => .pure h4
  · intro s hs
    refine Yields.bind (expect hs rfl hf.ne) fun s2 h2 => ?_
    rw [List.foldl_map]
    exact .pure h2

/-! ## Strings, words and numbers -/

theorem deStr_ok {st s ls tail} (h : RPos fl st (.str s :: ls) tail) (hne : ls ≠ []) :
    Yields (deStr (rNext fl) st) s fun st' => RPos fl st' ls tail := by
  obtain ⟨s1, e1, h1⟩ := h.restart hne (st0 := { st with strbuf := [] }) rfl
  refine ⟨s1, ?_, h1⟩
  have ht : st.tok = .str := h.tok
  have hs : st.strbuf = s := At'.sb h s rfl
  have ea : asString st = .ok s { st with strbuf := [] } := by
    show (if st.tok = .str then (M.set { st with strbuf := [] } >>= fun _ => Pure.pure st.strbuf) else errToken "string" : PM _) st = _
    rw [if_pos ht, hs]; rfl
  show (asString >>= fun s => rNext fl >>= fun _ => Pure.pure s) st = _
  rw [M.bind_ok ea, M.bind_ok e1]; rfl

/-- An identifier: the name is still in the buffer after reading on, unless an identifier follows. -/
theorem ident_ok {st w l ls tail what} (h : RPos fl st (.word w :: l :: ls) tail) (hw : NotBool w) (hl : l.ib = none) :
    Yields (expectTok (rNext fl) .ident what st) () fun s => RPos fl s (l :: ls) tail ∧ s.identbuf = w := by
  have ht : st.tok = .ident := by rw [h.tok]; simp [rtok, hw.1, hw.2]
  rw [expectTok_ok ht]
  obtain ⟨s, e, h1, _, h3⟩ := h.next
  refine ⟨s, e, h1, ?_⟩
  rw [h3, hl]
  exact At'.ib h w rfl

theorem deInt_ok {st k t i ls tail} (h : RPos fl st (.num t :: ls) tail) (hne : ls ≠ []) (hk : k.textual = true)
    (ht : t.intVal = some i) (hi : k.inRange i) (hu : k.signed = false → ∃ n, t = .nat n) :
    Yields (deInt (rNext fl) k st) (.int i) fun s => RPos fl s ls tail := by
  have htok : st.tok = t.tok := h.tok
  have hrt : castInt k i = i := ofTwos_toTwos k i hi
  obtain ⟨h1, h2⟩ := hi
  have hnx := h.next' hne
  unfold deInt
  rw [if_neg (by simp [hk])]
  cases hs : k.signed with
  | true =>
    rw [if_pos rfl]
    have hr : i64Range k.lo k.hi st = .ok i st := by
      show ((match st.tok with
        | .i64 v => if v < k.lo then errRange (showInt v ++ '<' :: showInt k.lo) else Pure.pure v
        | .u64 v =>
          if u64AsI64 v > k.hi then errRange (showNat v ++ '>' :: showInt k.hi) else Pure.pure (u64AsI64 v)
        | _ => errToken "signed integer") : PM Int) st = _
      rw [htok]
      cases t with
      | float x => cases ht
      | neg j =>
        injection ht with ht; subst ht
        simp only [Num.tok]
        rw [if_neg (by omega)]; rfl
      | nat j =>
        injection ht with ht; subst ht
        simp only [Num.tok]
        have hb : (j : Int) < 2 ^ 63 := by
          cases k <;> simp [IntKind.textual, IntKind.signed, IntKind.hi, IntKind.bytes] at hk hs h2 ⊢ <;> omega
        have hu : u64AsI64 j = j := by unfold u64AsI64; rw [if_pos (by omega)]
        rw [hu, if_neg (by omega)]; rfl
    refine Yields.bind (a := i) ⟨st, hr, rfl⟩ fun s hs => ?_
    subst hs
    refine Yields.bind hnx fun s hs => ?_
    rw [hrt]; exact .pure hs
  | false =>
    rw [if_neg (by simp)]
    obtain ⟨n, rfl⟩ := hu hs
    injection ht with ht; subst ht
    refine Yields.bind (a := n) ⟨st, u64Range_ok htok (by omega), rfl⟩ fun s hs => ?_
    subst hs
    refine Yields.bind hnx fun s hs => ?_
    rw [hrt]; exact .pure hs

theorem asF64_ok {st t ls tail} (h : RPos fl st (.num t :: ls) tail) : asF64 fl st = .ok (t.asF64 fl) st := by
  have htok : st.tok = t.tok := h.tok
  show ((match st.tok with
    | .i64 v => Pure.pure (fl.ofI64 v)
    | .u64 v => Pure.pure (fl.ofU64 v)
    | .f64 x => Pure.pure x
    | _ => errToken "floating point") : PM (BitVec 64)) st = _
  rw [htok]
  cases t <;> rfl

/-! ## Durations -/

theorem durItem_ok {st ks t sep ys tr rest tail} {acc acc' : Option Nat × Option Nat} {max : Nat}
    (hsep : sep = [.punct .comma] ∨ (sep = [] ∧ ys = [] ∧ tr = false))
    (h : RPos fl st (.str ks :: .punct .colon :: .num (.nat t) :: (sep ++ (commaLexemes tr ys ++ .punct .curlyClose :: rest))) tail)
    (ht : t ≤ max)
    (hv : ∀ s, durValue (rNext fl) acc ks s = (colon (rNext fl) >>= fun _ => u64Range max >>= fun v => rNext fl >>= fun _ =>
      Pure.pure (if ks = ['s', 'e', 'c', 's'] then (some v, acc.2) else (acc.1, some v))) s)
    (he : acc' = if ks = ['s', 'e', 'c', 's'] then (some t, acc.2) else (acc.1, some t)) :
    Yields (durItem (rNext fl) acc st) acc' fun s => RPos fl s (commaLexemes tr ys ++ .punct .curlyClose :: rest) tail := by
  refine Yields.bind (deStr_ok h (by simp)) fun s1 h1 => ?_
  have : Yields (durValue (rNext fl) acc ks s1) acc' fun s =>
      RPos fl s (sep ++ (commaLexemes tr ys ++ .punct .curlyClose :: rest)) tail := by
    rw [hv]
    refine Yields.bind (expect h1 rfl (by simp)) fun s2 h2 => ?_
    refine Yields.bind (a := t) ⟨s2, u64Range_ok h2.tok ht, rfl⟩ fun s hs => ?_
    subst hs
    refine Yields.bind (h2.next' (by rcases hsep with rfl | ⟨rfl, _⟩ <;> simp)) fun s3 h3 => ?_
    rw [he]
    exact .pure h3
  refine this.bind fun s h => ?_
  exact Yields.bind (eat_sep h hsep (by decide)) fun s2 h2 => .pure h2

/-- A member of a duration as it is counted. -/
def durStep (acc : Option Nat × Option Nat) (m : Bool × Nat) : Option Nat × Option Nat :=
  if m.1 then (some m.2, acc.2) else (acc.1, some m.2)

theorem deDur_ok {n ms tr s ns} (hm : DurMembers ms s ns) (hn : ns ≤ 1000000000) (hsn : s + ns / 1000000000 ≤ u64Max) (hf : 3 ≤ n) :
    Reads fl (deDur (rNext fl) n) (RTree.map ms tr).lexemes (.dur (s + ns / 1000000000) (ns % 1000000000)) := by
  intro st rest tail hfo h
  rw [RTree.lexemes_map] at h
  simp only [List.cons_append, List.append_assoc, List.nil_append] at h
  refine Yields.bind (expect h rfl (by simp)) fun s1 h1 => ?_
  have hn1 : ns ≤ 2 ^ 32 - 1 := by omega
  have hs : s ≤ u64Max := by omega
  have fin : ∀ (o : Option Nat) (s2 : PSt), (o = some ns ∨ (o = none ∧ ns = 0)) →
      RPos fl s2 (.punct .curlyClose :: rest) tail →
      Yields ((curlyClose (rNext fl) >>= fun _ =>
        match ((some s, o) : Option Nat × Option Nat).1 with
        | none => errParse "Duration must have secs field".toList
        | some secs =>
          if o.getD 0 > 1000000000 then errRange "Duration nanos must be at most 1,000,000,000".toList
          else durNewP secs (o.getD 0)) s2) (.dur (s + ns / 1000000000) (ns % 1000000000)) fun s => RPos fl s rest tail := by
    intro o s2 ho h2
    refine Yields.bind (expect h2 rfl hfo.ne) fun s3 h3 => ?_
    have e : o.getD 0 = ns := by rcases ho with rfl | ⟨rfl, rfl⟩ <;> rfl
    simp only [e]
    rw [if_neg (by omega)]
    refine ⟨s3, ?_, h3⟩
    unfold durNewP
    by_cases h9 : ns < 1000000000
    · rw [if_pos h9, show ns / 1000000000 = 0 by omega, show ns % 1000000000 = ns by omega]; rfl
    · rw [if_neg h9, if_pos hsn]
  have dS : ∀ (acc : Option Nat × Option Nat), acc.1 = none → ∀ st, durValue (rNext fl) acc ['s', 'e', 'c', 's'] st =
      (colon (rNext fl) >>= fun _ => u64Range u64Max >>= fun v => rNext fl >>= fun _ =>
      Pure.pure (if ['s', 'e', 'c', 's'] = ['s', 'e', 'c', 's'] then (some v, acc.2) else (acc.1, some v))) st := by
    intro acc h st
    unfold durValue
    simp [h]
  have dN : ∀ (acc : Option Nat × Option Nat), acc.2 = none → ∀ st, durValue (rNext fl) acc ['n', 'a', 'n', 'o', 's'] st =
      (colon (rNext fl) >>= fun _ => u64Range (2 ^ 32 - 1) >>= fun v => rNext fl >>= fun _ =>
      Pure.pure (if ['n', 'a', 'n', 'o', 's'] = ['s', 'e', 'c', 's'] then (some v, acc.2) else (acc.1, some v))) st := by
    intro acc h st
    unfold durValue
    simp [h]
  have close : ∀ (k : Nat) acc s2, RPos fl s2 (.punct .curlyClose :: rest) tail →
      whileNot .curlyClose (durItem (rNext fl)) (k + 1) acc s2 = .ok acc s2 := by
    intro k acc s2 h2
    show (if s2.tok = .curlyClose then Pure.pure acc else (durItem (rNext fl) acc >>= fun acc' => whileNot .curlyClose (durItem (rNext fl)) k acc') : PM _) s2 = _
    rw [if_pos (by exact h2.tok)]
    rfl
  have step : ∀ (k : Nat) acc (s2 : PSt) a Q, s2.tok = .str → Yields ((durItem (rNext fl) acc >>= fun acc' => whileNot .curlyClose (durItem (rNext fl)) k acc') s2) a Q →
      Yields (whileNot .curlyClose (durItem (rNext fl)) (k + 1) acc s2) a Q := by
    intro k acc s2 a Q h2 hy
    show Yields ((if s2.tok = .curlyClose then Pure.pure acc else (durItem (rNext fl) acc >>= fun acc' => whileNot .curlyClose (durItem (rNext fl)) k acc') : PM _) s2) _ _
    rw [if_neg (by rw [h2]; simp)]
    exact hy
  obtain ⟨n, rfl⟩ : ∃ m, n = m + 1 + 1 + 1 := ⟨n - 3, by omega⟩
  have l1 : ∀ s, (RTree.str s).lexemes = [.str s] := fun s => by rw [RTree.lexemes]
  have l2 : ∀ s, (RTree.num s).lexemes = [.num s] := fun s => by rw [RTree.lexemes]
  rcases hm with rfl | rfl | ⟨rfl, h0⟩
  · simp only [List.map_cons, List.map_nil, l1, l2, List.cons_append, List.nil_append] at h1
    obtain ⟨sep, e1, e2, _, _⟩ := commaLexemes_cons tr [.str ['s', 'e', 'c', 's'], .punct .colon, .num (.nat s)]
      [[.str ['n', 'a', 'n', 'o', 's'], .punct .colon, .num (.nat ns)]] (.punct .curlyClose :: rest)
    rw [e1] at h1
    refine Yields.bind (a := (some s, some ns)) (Q := fun s => RPos fl s (.punct .curlyClose :: rest) tail) ?_ (fun s2 h2 => fin _ s2 (.inl rfl) h2)
    refine step _ _ _ _ _ h1.tok ?_
    refine Yields.bind (durItem_ok (acc' := (some s, none)) e2 h1 hs (dS _ rfl) rfl) fun s2 h2 => ?_
    obtain ⟨sep', e1', e2', _, _⟩ := commaLexemes_cons tr [.str ['n', 'a', 'n', 'o', 's'], .punct .colon, .num (.nat ns)]
      [] (.punct .curlyClose :: rest)
    rw [e1'] at h2
    refine step _ _ _ _ _ h2.tok ?_
    refine Yields.bind (durItem_ok (acc' := (some s, some ns)) e2' h2 hn1 (dN _ rfl) rfl) fun s3 h3 => ?_
    exact ⟨s3, close _ _ _ h3, h3⟩
  · simp only [List.map_cons, List.map_nil, l1, l2, List.cons_append, List.nil_append] at h1
    obtain ⟨sep, e1, e2, _, _⟩ := commaLexemes_cons tr [.str ['n', 'a', 'n', 'o', 's'], .punct .colon, .num (.nat ns)]
      [[.str ['s', 'e', 'c', 's'], .punct .colon, .num (.nat s)]] (.punct .curlyClose :: rest)
    rw [e1] at h1
    refine Yields.bind (a := (some s, some ns)) (Q := fun s => RPos fl s (.punct .curlyClose :: rest) tail) ?_ (fun s2 h2 => fin _ s2 (.inl rfl) h2)
    refine step _ _ _ _ _ h1.tok ?_
    refine Yields.bind (durItem_ok (acc' := (none, some ns)) e2 h1 hn1 (dN _ rfl) rfl) fun s2 h2 => ?_
    obtain ⟨sep', e1', e2', _, _⟩ := commaLexemes_cons tr [.str ['s', 'e', 'c', 's'], .punct .colon, .num (.nat s)]
      [] (.punct .curlyClose :: rest)
    rw [e1'] at h2
    refine step _ _ _ _ _ h2.tok ?_
    refine Yields.bind (durItem_ok (acc' := (some s, some ns)) e2' h2 hs (dS _ rfl) rfl) fun s3 h3 => ?_
    exact ⟨s3, close _ _ _ h3, h3⟩
  · simp only [List.map_cons, List.map_nil, l1, l2, List.cons_append, List.nil_append] at h1
    refine Yields.bind (a := (some s, none)) (Q := fun s => RPos fl s (.punct .curlyClose :: rest) tail) ?_ (fun s2 h2 => fin _ s2 (.inr ⟨rfl, h0⟩) h2)
    obtain ⟨sep', e1', e2', _, _⟩ := commaLexemes_cons tr [.str ['s', 'e', 'c', 's'], .punct .colon, .num (.nat s)]
      [] (.punct .curlyClose :: rest)
    rw [e1'] at h1
    refine step _ _ _ _ _ h1.tok ?_
    refine Yields.bind (durItem_ok (acc' := (some s, none)) e2' h1 hs (dS _ rfl) rfl) fun s3 h3 => ?_
    exact ⟨s3, close _ _ _ h3, h3⟩

end Ron
end NS
