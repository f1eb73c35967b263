import Verif.Lemmas.TomlRel
import Verif.Lemmas.Progress
/-! The TOML parser always stops. -/
namespace NS
variable {o : TomlOps}

theorem tnext_len (c : Cur) : c.tnext.txt.length ≤ c.txt.length := by
  rw [Cur.tnext, Cur.next_txt, List.length_tail]; omega

theorem tnext_lt {c : Cur} (h : c.ch ≠ '\x00') : c.tnext.txt.length < c.txt.length := by
  have := Cur.pos_of_ch h
  rw [Cur.tnext, Cur.next_txt, List.length_tail]; omega

theorem tComments_total {n : Nat} : ∀ {c : Cur}, c.txt.length < n →
    ∃ d, tComments n c = some d ∧ d.txt.length ≤ c.txt.length := by
  induction n with
  | zero => intro c h; omega
  | succ n ih =>
    intro c h
    simp only [tComments]
    split
    · rename_i hc
      have h1 : (c.span rcol (fun x => x != '\n' && x != '\x00')).2.txt.length < c.txt.length :=
        span_len_lt rcol (by rw [hc]; decide) (by decide)
      have h2 := span_len rcol isWs (c.span rcol (fun x => x != '\n' && x != '\x00')).2
      obtain ⟨d, e, hd⟩ := ih (c := ((c.span rcol (fun x => x != '\n' && x != '\x00')).2.span rcol isWs).2) (by omega)
      exact ⟨d, e, by omega⟩
    · exact ⟨c, rfl, Nat.le_refl _⟩

theorem tQuotes_len (n : Nat) : ∀ c : Cur, (tQuotes n c).2.txt.length ≤ c.txt.length := by
  induction n with
  | zero => intro c; exact Nat.le_refl _
  | succ n ih =>
    intro c
    simp only [tQuotes]
    split
    · have := ih c.tnext; have := tnext_len c; simp only; omega
    · exact Nat.le_refl _

/-- Neither a panic nor out of fuel; the text does not grow. -/
def Lands {α : Type} (len : Nat) : Out TErr Cur α → Prop
  | .ok _ c => c.txt.length ≤ len
  | .err _ c => c.txt.length ≤ len
  | .panic => False
  | .oof => False

theorem Lands.mono {α : Type} {a b : Nat} {x : Out TErr Cur α} (h : Lands a x) (hab : a ≤ b) : Lands b x := by
  cases x with
  | ok _ c => exact Nat.le_trans h hab
  | err _ c => exact Nat.le_trans h hab
  | panic => exact h
  | oof => exact h

theorem tStrBody_lands (long : Bool) {n : Nat} : ∀ {c : Cur} (val : List Char), c.txt.length + 2 ≤ n →
    Lands c.txt.length (tStrBody long n val c) := by
  induction n with
  | zero => intro c val h; omega
  | succ n ih =>
    intro c val h
    simp only [tStrBody]
    have h1 := tnext_len c
    split
    · rename_i hc
      split
      · have h2 : (c.span rcol (· == '"')).2.txt.length < c.txt.length := span_len_lt rcol (by rw [hc]; rfl) (by decide)
        split
        · exact Nat.le_of_lt h2
        · have h3 := tnext_len (c.span rcol (· == '"')).2
          exact (ih _ (by omega)).mono (by omega)
      · exact Nat.le_refl _
    · split
      · rename_i hc
        have h2 := tnext_lt (c := c) (by rw [hc]; decide)
        have h3 := tnext_len c.tnext
        exact (ih _ (by omega)).mono (by omega)
      · split
        · exact Nat.le_refl _
        · rename_i hz
          have h2 := tnext_lt (c := c) hz
          exact (ih _ (by omega)).mono (by omega)

theorem tStr_lands {c : Cur} : Lands c.tnext.txt.length (tStr c) := by
  have h1 := tQuotes_len 2 c.tnext
  simp only [tStr]
  have h2 := tStrBody_lands ((tQuotes 2 c.tnext).1 == 2) (n := (tQuotes 2 c.tnext).2.txt.length + 2) (c := (tQuotes 2 c.tnext).2) [] (Nat.le_refl _)
  generalize tStrBody _ _ _ _ = x at h2
  cases x with
  | ok a c' => have := tnext_len c'; simp only [Lands] at h2 ⊢; omega
  | err e c' => simp only [Lands] at h2 ⊢; omega
  | panic => exact h2
  | oof => exact h2

theorem tIdent_lands (start : List Char) {c : Cur} :
    Lands (c.span rcol (fun x => isTIdent x || x == '.')).2.txt.length (tIdent start c) := by
  simp only [tIdent]
  split <;> exact Nat.le_refl _

theorem tWord_len (w : List Char) : ∀ c : Cur, (tWord w c).2.2.txt.length ≤ c.txt.length := by
  induction w with
  | nil => intro c; exact Nat.le_refl _
  | cons x w ih =>
    intro c
    simp only [tWord]
    split
    · have := ih c.tnext; have := tnext_len c; simp only; omega
    · exact Nat.le_refl _

theorem tWord_lt {x : Char} {w : List Char} {c : Cur} (h : c.ch = x) (hx : x ≠ '\x00') :
    (tWord (x :: w) c).2.2.txt.length < c.txt.length := by
  simp only [tWord, if_pos h]
  have := tWord_len w c.tnext
  have := tnext_lt (c := c) (by rw [h]; exact hx)
  omega

theorem tNumRest_lands (neg : Bool) (num : List Char) {c : Cur} :
    Lands (c.span rcol isDigU).2.txt.length (tNumRest o neg num c) := by
  simp only [tNumRest]
  have h1 := tnext_len (c.span rcol isDigU).2
  split
  · have h2 := span_len rcol isDigU (c.span rcol isDigU).2.tnext
    generalize o.parse64 _ = x
    cases x <;> (simp only [Lands, tErrParse]; omega)
  · split
    · have h2 := span_len rcol isTDate (c.span rcol isDigU).2.tnext
      simp only [Lands]; omega
    · split
      · exact (tIdent_lands _).mono (span_len ..)
      · generalize parseI64Str _ = x
        cases x <;> exact Nat.le_refl _

theorem tNumRest_le (neg : Bool) (num : List Char) {c : Cur} : Lands c.txt.length (tNumRest o neg num c) :=
  (tNumRest_lands neg num).mono (span_len ..)

theorem tNum_lands {c : Cur} (h : c.ch = '+' ∨ c.ch = '-' ∨ isDig c.ch = true) : Lands (c.txt.length - 1) (tNum o c) := by
  have key : ∀ (num : List Char) (neg : Bool) (d : Cur), Lands d.txt.length
      (if d.ch = 'n' then
        if (tWord ['n', 'a', 'n'] d).2.1 && isTTerm (tWord ['n', 'a', 'n'] d).2.2.ch then .ok (.nan neg) (tWord ['n', 'a', 'n'] d).2.2
        else tNumRest o neg (num ++ (tWord ['n', 'a', 'n'] d).1) (tWord ['n', 'a', 'n'] d).2.2
      else if d.ch = 'i' then
        if (tWord ['i', 'n', 'f'] d).2.1 && isTTerm (tWord ['i', 'n', 'f'] d).2.2.ch then .ok (.inf neg) (tWord ['i', 'n', 'f'] d).2.2
        else tNumRest o neg (num ++ (tWord ['i', 'n', 'f'] d).1) (tWord ['i', 'n', 'f'] d).2.2
      else tNumRest o neg num d) := by
    intro num neg d
    split
    · split
      · exact tWord_len ..
      · exact (tNumRest_le _ _).mono (tWord_len ..)
    · split
      · split
        · exact tWord_len ..
        · exact (tNumRest_le _ _).mono (tWord_len ..)
      · exact tNumRest_le _ _
  have hp : c.ch ≠ '\x00' := by
    rcases h with h | h | h
    · rw [h]; decide
    · rw [h]; decide
    · intro e; rw [e] at h; revert h; decide
  have hl : c.tnext.txt.length = c.txt.length - 1 := by rw [Cur.tnext, Cur.next_txt, List.length_tail]
  simp only [tNum]
  split
  · rw [← hl]; exact key _ _ _
  · split
    · rw [← hl]; exact key _ _ _
    · rename_i h1 h2
      have hd : isDig c.ch = true := by
        rcases h with h | h | h
        · exact absurd h h1
        · exact absurd h h2
        · exact h
      have n1 : c.ch ≠ 'n' := by intro e; rw [e] at hd; revert hd; decide
      have n2 : c.ch ≠ 'i' := by intro e; rw [e] at hd; revert hd; decide
      simp only [if_neg n1, if_neg n2]
      refine (tNumRest_lands _ _).mono ?_
      have := span_len_lt rcol (p := isDigU) (c := c) (by simp [isDigU, hd]) (by decide)
      omega

/-- One token: it stops, and it consumes something unless the end is reached. -/
theorem tTok_lands (c : Cur) : (c.ch = '\x00' ∧ tTok o c = .ok .eof c) ∨
    (c.ch ≠ '\x00' ∧ Lands (c.txt.length - 1) (tTok o c) ∧ (∀ c', tTok o c ≠ .ok .eof c')) ∨
    (∃ e, tTok o c = .err e c) := by
  have hl : c.tnext.txt.length = c.txt.length - 1 := by rw [Cur.tnext, Cur.next_txt, List.length_tail]
  by_cases hz : c.ch = '\x00'
  · exact .inl ⟨hz, by simp [tTok, hz]⟩
  refine .inr ?_
  have neof : ∀ (t : TTok) (d : Cur), t ≠ .eof → ∀ c', (.ok t d : Out TErr Cur TTok) ≠ .ok .eof c' := by
    intro t d h c' e; injection e with e; exact h e
  have one : ∀ t : TTok, t ≠ .eof → Lands (c.txt.length - 1) (.ok t c.tnext : Out TErr Cur TTok) ∧
      ∀ c', (.ok t c.tnext : Out TErr Cur TTok) ≠ .ok .eof c' :=
    fun t h => ⟨by rw [← hl]; exact Nat.le_refl _, neof t _ h⟩
  have idn : ∀ st (d c' : Cur), tIdent st d ≠ .ok .eof c' := by
    intro st d c' e
    simp only [tIdent] at e
    split at e
    · injection e with e
      revert e
      repeat' split
      all_goals simp
    · cases e
  have nrn : ∀ neg num (d c' : Cur), tNumRest o neg num d ≠ .ok .eof c' := by
    intro neg num d c' e
    simp only [tNumRest] at e
    split at e
    · split at e <;> first | cases e | (injection e with e; cases e)
    · split at e
      · injection e with e; cases e
      · split at e
        · exact idn _ _ _ e
        · split at e
          · injection e with e; revert e; split <;> simp
          · cases e
  simp only [tTok, if_neg hz]
  split
  · exact .inl ⟨hz, one _ (by simp)⟩
  split
  · exact .inl ⟨hz, one _ (by simp)⟩
  split
  · exact .inl ⟨hz, one _ (by simp)⟩
  split
  · exact .inl ⟨hz, one _ (by simp)⟩
  split
  · rename_i h
    refine .inl ⟨hz, tNum_lands h, ?_⟩
    have key : ∀ (num : List Char) (neg : Bool) (d c' : Cur),
      (if d.ch = 'n' then
        if (tWord ['n', 'a', 'n'] d).2.1 && isTTerm (tWord ['n', 'a', 'n'] d).2.2.ch then .ok (.nan neg) (tWord ['n', 'a', 'n'] d).2.2
        else tNumRest o neg (num ++ (tWord ['n', 'a', 'n'] d).1) (tWord ['n', 'a', 'n'] d).2.2
      else if d.ch = 'i' then
        if (tWord ['i', 'n', 'f'] d).2.1 && isTTerm (tWord ['i', 'n', 'f'] d).2.2.ch then .ok (.inf neg) (tWord ['i', 'n', 'f'] d).2.2
        else tNumRest o neg (num ++ (tWord ['i', 'n', 'f'] d).1) (tWord ['i', 'n', 'f'] d).2.2
      else tNumRest o neg num d) ≠ .ok .eof c' := by
      intro num neg d c' e
      split at e
      · split at e
        · injection e with e; cases e
        · exact nrn _ _ _ _ e
      · split at e
        · split at e
          · injection e with e; cases e
          · exact nrn _ _ _ _ e
        · exact nrn _ _ _ _ e
    intro c' e
    simp only [tNum] at e
    split at e
    · exact key _ _ _ _ e
    · split at e
      · exact key _ _ _ _ e
      · exact key _ _ _ _ e
  split
  · refine .inl ⟨hz, by rw [← hl]; exact tStr_lands, ?_⟩
    intro c' e
    simp only [tStr] at e
    split at e <;> first | cases e | (injection e with e; cases e)
  split
  · rename_i h
    refine .inl ⟨hz, (tIdent_lands _).mono ?_, idn _ _⟩
    have := span_len_lt rcol (p := fun x => isTIdent x || x == '.') (c := c) (by simp [h]) (by decide)
    omega
  · exact .inr ⟨_, rfl⟩

/-- `next_tok` stops; unless it reports the end it consumes something. -/
theorem tNext_lands (c : Cur) : Lands c.txt.length (tNext o c) ∧
    ∀ t c', tNext o c = .ok t c' → t = .eof ∧ c'.ch = '\x00' ∨ t ≠ .eof ∧ c'.txt.length < c.txt.length := by
  have h1 := span_len rcol isWs c
  obtain ⟨d, e, hd⟩ := tComments_total (n := c.txt.length + 1) (c := (c.span rcol isWs).2) (by omega)
  simp only [tNext, e]
  rcases tTok_lands (o := o) d with ⟨hz, h⟩ | ⟨hz, h, hn⟩ | ⟨er, h⟩
  · rw [h]
    refine ⟨Nat.le_trans hd h1, fun t c' e => ?_⟩
    injection e with e1 e2
    subst e1 e2
    exact .inl ⟨rfl, hz⟩
  · refine ⟨h.mono (by omega), fun t c' e => .inr ⟨?_, ?_⟩⟩
    · intro e'; subst e'; exact hn c' e
    · rw [e] at h
      have := Cur.pos_of_ch hz
      have h : c'.txt.length ≤ d.txt.length - 1 := h
      omega
  · rw [h]
    exact ⟨Nat.le_trans hd h1, fun t c' e => by cases e⟩

theorem Lands.bind {α β : Type} {len : Nat} {x : TM α} {f : α → TM β} {c : Cur} (h : Lands len (x c))
    (hf : ∀ a c', x c = .ok a c' → Lands len (f a c')) : Lands len ((x >>= f) c) := by
  show Lands len (M.bind x f c)
  unfold M.bind
  cases hx : x c with
  | ok a c' => exact hf a c' hx
  | err e c' => rw [hx] at h; exact h
  | panic => rw [hx] at h; exact h
  | oof => rw [hx] at h; exact h

theorem Lands.pure {α : Type} {a : α} {c : Cur} {len : Nat} (h : c.txt.length ≤ len) :
    Lands len ((Pure.pure a : TM α) c) := h

theorem Lands.token {α : Type} {t : TTok} {c : Cur} {len : Nat} (h : c.txt.length ≤ len) :
    Lands len ((tErrToken t : TM α) c) := h

theorem tVal_lands : ∀ n, (∀ t (c : Cur), 2 * c.txt.length + 2 ≤ n → Lands c.txt.length (tVal o n t c)) ∧
    ∀ vs (c : Cur), 2 * c.txt.length + 1 ≤ n → Lands c.txt.length (tVals o n vs c) := by
  intro n
  induction n with
  | zero => exact ⟨fun t c h => by omega, fun vs c h => by omega⟩
  | succ n ih =>
    obtain ⟨h1, h2⟩ := ih
    refine ⟨fun t c h => ?_, fun vs c h => ?_⟩
    · cases t <;> simp only [tVal] <;>
        first
        | exact Lands.pure (Nat.le_refl _)
        | exact Lands.token (Nat.le_refl _)
        | (refine Lands.bind (h2 [] c (by omega)) fun a c' e => ?_
           have := h2 [] c (by omega)
           rw [e] at this
           exact Lands.pure this)
    · simp only [tVals]
      obtain ⟨g1, g2⟩ := tNext_lands (o := o) c
      refine Lands.bind g1 fun t c' e => ?_
      have hle : c'.txt.length ≤ c.txt.length := by rw [e] at g1; exact g1
      split
      · exact Lands.pure hle
      · rename_i hne
        have hlt : c'.txt.length < c.txt.length := by
          rcases g2 t c' e with ⟨h, _⟩ | ⟨_, h⟩
          · exact absurd (.inr h) hne
          · exact h
        split
        · have hv := h1 t c' (by omega)
          refine Lands.bind (hv.mono hle) fun v c2 e2 => ?_
          rw [e2] at hv
          have hv : c2.txt.length ≤ c'.txt.length := hv
          exact (h2 _ c2 (by omega)).mono (by omega)
        · exact (h2 _ c' (by omega)).mono hle

/-- Like `Lands`, a panic allowed. -/
def Stops {α : Type} (len : Nat) : Out TErr Cur α → Prop
  | .ok _ c => c.txt.length ≤ len
  | .err _ c => c.txt.length ≤ len
  | .panic => True
  | .oof => False

theorem Lands.stops {α : Type} {len : Nat} {x : Out TErr Cur α} (h : Lands len x) : Stops len x := by
  cases x <;> first | exact h | exact trivial

theorem Stops.mono {α : Type} {a b : Nat} {x : Out TErr Cur α} (h : Stops a x) (hab : a ≤ b) : Stops b x := by
  cases x with
  | ok _ c => exact Nat.le_trans h hab
  | err _ c => exact Nat.le_trans h hab
  | panic => exact h
  | oof => exact h

theorem Stops.bind {α β : Type} {len : Nat} {x : TM α} {f : α → TM β} {c : Cur} (h : Stops len (x c))
    (hf : ∀ a c', x c = .ok a c' → Stops len (f a c')) : Stops len ((x >>= f) c) := by
  show Stops len (M.bind x f c)
  unfold M.bind
  cases hx : x c with
  | ok a c' => exact hf a c' hx
  | err e c' => rw [hx] at h; exact h
  | panic => trivial
  | oof => rw [hx] at h; exact h

theorem tExpect_lands (t : TTok) (c : Cur) : Lands c.txt.length (tExpect o t c) := by
  obtain ⟨g1, _⟩ := tNext_lands (o := o) c
  refine Lands.bind g1 fun t c' e => ?_
  have hle : c'.txt.length ≤ c.txt.length := by rw [e] at g1; exact g1
  split
  · exact Lands.token hle
  · exact Lands.pure hle

theorem orPanic_stops {α : Type} (x : Option α) {c : Cur} {len : Nat} (h : c.txt.length ≤ len) : Stops len (orPanic x c) := by
  cases x with
  | none => trivial
  | some a => exact h

theorem tHeader_stops (u : TOut) (c : Cur) : Stops c.txt.length (tHeader o u c) := by
  obtain ⟨g1, _⟩ := tNext_lands (o := o) c
  refine Stops.bind g1.stops fun t c1 e => ?_
  have h1 : c1.txt.length ≤ c.txt.length := by rw [e] at g1; exact g1
  have ex : ∀ (key : List Char), Stops c.txt.length ((tExpect o .blockClose >>= fun _ => Pure.pure { u with scope := key } : TM TOut) c1) := by
    intro key
    have hx := tExpect_lands (o := o) .blockClose c1
    refine Stops.bind (hx.mono h1).stops fun _ c2 e2 => ?_
    rw [e2] at hx
    exact Nat.le_trans (show c2.txt.length ≤ c1.txt.length from hx) h1
  cases t <;> simp only
  case str => exact ex _
  case ident => exact ex _
  case blockOpen =>
    obtain ⟨g2, _⟩ := tNext_lands (o := o) c1
    refine Stops.bind (g2.mono h1).stops fun t2 c2 e2 => ?_
    rw [e2] at g2
    have h2 : c2.txt.length ≤ c1.txt.length := g2
    split
    · have g3 := tExpect_lands (o := o) .blockClose c2
      refine Stops.bind (g3.mono (by omega)).stops fun _ c3 e3 => ?_
      rw [e3] at g3
      have h3 : c3.txt.length ≤ c2.txt.length := g3
      have g4 := tExpect_lands (o := o) .blockClose c3
      refine Stops.bind (g4.mono (by omega)).stops fun _ c4 e4 => ?_
      rw [e4] at g4
      have h4 : c4.txt.length ≤ c3.txt.length := g4
      refine Stops.bind (orPanic_stops _ (by omega)) fun u' c5 e5 => ?_
      cases hs : u.startArray (t2.text o) with
      | none => rw [hs] at e5; cases e5
      | some _ =>
        rw [hs] at e5
        injection e5 with _ e5
        subst e5
        exact show c4.txt.length ≤ _ by omega
    · exact show c2.txt.length ≤ _ by omega
  all_goals exact h1

theorem tKeyValue_stops {n : Nat} (key : List Char) (u : TOut) (c : Cur) (h : 2 * c.txt.length + 2 ≤ n) :
    Stops c.txt.length (tKeyValue o n key u c) := by
  have g1 := tExpect_lands (o := o) .equals c
  refine Stops.bind g1.stops fun _ c1 e1 => ?_
  rw [e1] at g1
  have h1 : c1.txt.length ≤ c.txt.length := g1
  obtain ⟨g2, _⟩ := tNext_lands (o := o) c1
  refine Stops.bind (g2.mono h1).stops fun t c2 e2 => ?_
  rw [e2] at g2
  have h2 : c2.txt.length ≤ c1.txt.length := g2
  have g3 := (tVal_lands (o := o) n).1 t c2 (by omega)
  refine Stops.bind (g3.mono (by omega)).stops fun v c3 e3 => ?_
  rw [e3] at g3
  have h3 : c3.txt.length ≤ c2.txt.length := g3
  exact orPanic_stops _ (by omega)

/-- A line: it stops, and consumes something unless it is the end. -/
theorem tLine_stops {n : Nat} (u : TOut) (c : Cur) (h : 2 * c.txt.length ≤ n) : Stops c.txt.length (tLine o n u c) ∧
    ∀ u' c', tLine o n u c = .ok (some u') c' → c'.txt.length < c.txt.length := by
  obtain ⟨g1, g2⟩ := tNext_lands (o := o) c
  have key : ∀ t c1, tNext o c = .ok t c1 → Stops c.txt.length ((if t = .eof then Pure.pure none
      else if t = .blockOpen then do let u ← tHeader o u; Pure.pure (some u)
      else if t.isKey then do let u ← tKeyValue o n (t.text o) u; Pure.pure (some u)
      else tErrToken t : TM (Option TOut)) c1) ∧
      ∀ u' c', (if t = .eof then Pure.pure none
        else if t = .blockOpen then do let u ← tHeader o u; Pure.pure (some u)
        else if t.isKey then do let u ← tKeyValue o n (t.text o) u; Pure.pure (some u)
        else tErrToken t : TM (Option TOut)) c1 = .ok (some u') c' → c'.txt.length < c.txt.length := by
    intro t c1 e
    have h1 : c1.txt.length ≤ c.txt.length := by rw [e] at g1; exact g1
    split
    · refine ⟨h1, fun u' c' e' => ?_⟩
      injection e' with e' _
      cases e'
    · rename_i hne
      have hlt : c1.txt.length < c.txt.length := by
        rcases g2 t c1 e with ⟨h, _⟩ | ⟨_, h⟩
        · exact absurd h hne
        · exact h
      have fin : ∀ (x : TM TOut), Stops c1.txt.length (x c1) →
          Stops c.txt.length ((x >>= fun u => Pure.pure (some u)) c1) ∧
          ∀ u' c', (x >>= fun u => Pure.pure (some u) : TM (Option TOut)) c1 = .ok (some u') c' → c'.txt.length < c.txt.length := by
        intro x hx
        refine ⟨Stops.bind (hx.mono h1) fun a c' e' => ?_, fun u' c' e' => ?_⟩
        · rw [e'] at hx
          exact Nat.le_trans (show c'.txt.length ≤ c1.txt.length from hx) h1
        · have e'' : M.bind x (fun u => Pure.pure (some u)) c1 = .ok (some u') c' := e'
          unfold M.bind at e''
          cases hxc : x c1 with
          | ok a c2 =>
            rw [hxc] at e'' hx
            injection e'' with _ e''
            subst e''
            have hx : c2.txt.length ≤ c1.txt.length := hx
            omega
          | err _ _ => rw [hxc] at e''; cases e''
          | panic => rw [hxc] at e''; cases e''
          | oof => rw [hxc] at e''; cases e''
      split
      · exact fin _ (tHeader_stops u c1)
      · split
        · exact fin _ (tKeyValue_stops _ u c1 (by omega))
        · exact ⟨h1, fun u' c' e' => by cases e'⟩
  refine ⟨Stops.bind g1.stops fun t c1 e => (key t c1 e).1, fun u' c' e => ?_⟩
  have e : M.bind (tNext o) _ c = .ok (some u') c' := e
  unfold M.bind at e
  cases hx : tNext o c with
  | ok t c1 => rw [hx] at e; exact (key t c1 hx).2 u' c' e
  | err _ _ => rw [hx] at e; cases e
  | panic => rw [hx] at e; cases e
  | oof => rw [hx] at e; cases e

theorem tLoop_stops {n : Nat} : ∀ (u : TOut) (c : Cur), 2 * c.txt.length + 1 ≤ n → tLoop o n u c ≠ .oof := by
  induction n with
  | zero => intro u c h; omega
  | succ n ih =>
    intro u c h e
    obtain ⟨g1, g2⟩ := tLine_stops (o := o) (n := n) u c (by omega)
    have e : M.bind (tLine o n u) _ c = .oof := e
    unfold M.bind at e
    cases hx : tLine o n u c with
    | ok r c' =>
      rw [hx] at e
      cases r with
      | none => cases e
      | some u' =>
        have := g2 u' c' hx
        exact ih u' c' (by omega) e
    | err _ _ => rw [hx] at e; cases e
    | panic => rw [hx] at e; cases e
    | oof => rw [hx] at g1; exact g1

/-- Fuel linear in the length of the text suffices. -/
theorem parseToml_stops (txt : List Char) {n : Nat} (h : 2 * txt.length + 1 ≤ n) : parseToml o n txt ≠ .oof :=
  tLoop_stops _ (tInit txt) (by rw [tInit_txt]; exact h)

end NS
