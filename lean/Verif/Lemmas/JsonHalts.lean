import Verif.Lemmas.JsonEnds
import Verif.Lemmas.JsonScan
import Verif.Lemmas.JsonLayout
/-! The outcome of the JSON reader on any text. -/
namespace NS
variable {env : Env} {fl : FloatOps}

/-- `T ls s`: the lexemes read so far are `ls`; `W ls`: these are all. -/
structure Reading (fl : FloatOps) (T : List Lexeme → PSt → Prop) (W : List Lexeme → Prop) : Prop where
  next : ∀ ls s s', T ls s → jNext fl s = .ok () s' →
    (∃ l, T (ls ++ [l]) s' ∧ s'.tok = jtok l ∧ ∃ sp, JSpell fl l sp) ∨ (s'.tok = .eof ∧ W ls)
  setStr : ∀ ls s b, T ls s → T ls { s with strbuf := b }

theorem JSpell.tok {l sp} (h : JSpell fl l sp) :
    jtok l ≠ .eof ∧ jtok l ≠ .bof ∧ (jtok l = .colon → l = .punct .colon) ∧ (∀ v, jtok l = .u64 v → l = .num (.nat v)) ∧
    ((jtok l = .blockOpen ∨ jtok l = .curlyOpen) ↔ l.bracket = 1) ∧
    ((jtok l = .blockClose ∨ jtok l = .curlyClose) ↔ l.bracket = -1) ∧ (l.bracket = 1 ∨ l.bracket = 0 ∨ l.bracket = -1) := by
  cases h with
  | @num t s h => cases t <;> simp [jtok, Num.tok, Lexeme.bracket]
  | str h => simp [jtok, Lexeme.bracket]
  | _ => simp [jtok, Lexeme.bracket]

/-- The state after reading lexemes. -/
def ReadI (fl : FloatOps) (T : List Lexeme → PSt → Prop) (W : List Lexeme → Prop) (s : PSt) : Prop :=
  AtEof s ∧ ((T [] s ∧ s.tok = .bof) ∨ (∃ ls l sp, T (ls ++ [l]) s ∧ s.tok = jtok l ∧ JSpell fl l sp) ∨
    (s.tok = .eof ∧ ∃ ls, W ls))

theorem readI_lexer {T W} (R : Reading fl T W) : Lexer (jNext fl) (ReadI fl T W) where
  total := jNext_total
  setStr s b h := by
    refine ⟨h.1, ?_⟩
    rcases h.2 with ⟨h1, h2⟩ | ⟨ls, l, sp, h1, h2⟩ | h1
    · exact .inl ⟨R.setStr _ _ _ h1, h2⟩
    · exact .inr (.inl ⟨ls, l, sp, R.setStr _ _ _ h1, h2⟩)
    · exact .inr (.inr h1)
  run s hs := by
    rcases (jNext_lexer (fl := fl)).run s hs.1 with ⟨s', e, h1, h2⟩ | h
    · refine .inl ⟨s', e, ⟨h1, ?_⟩, h2⟩
      have key : ∀ ls, T ls s → (T [] s' ∧ s'.tok = .bof) ∨ (∃ ls l sp, T (ls ++ [l]) s' ∧ s'.tok = jtok l ∧ JSpell fl l sp) ∨
          (s'.tok = .eof ∧ ∃ ls, W ls) := by
        intro ls hT
        rcases R.next ls s s' hT e with ⟨l, g1, g2, sp, g3⟩ | ⟨g1, g2⟩
        · exact .inr (.inl ⟨ls, l, sp, g1, g2, g3⟩)
        · exact .inr (.inr ⟨g1, ls, g2⟩)
      rcases hs.2 with ⟨h, _⟩ | ⟨ls, l, sp, h, _⟩ | ⟨h, ls, hW⟩
      · exact key _ h
      · exact key _ h
      · rw [jNext_eof (hs.1 h)] at e
        injection e with _ e
        subst e
        exact .inr (.inr ⟨rfl, ls, hW⟩)
    · exact .inr h

/-- A bracket that is not closed in the whole text. -/
def Unclosed (W : List Lexeme → Prop) : Prop := ∃ ls, W ls ∧ ¬ BracketsClosed ls

/-- A colon without a value. -/
def BadColon (T : List Lexeme → PSt → Prop) (W : List Lexeme → Prop) : Prop :=
  (∃ ls l s, T (ls ++ [.punct .colon, l]) s ∧ l.startsValue = false) ∨ ∃ ls, W (ls ++ [.punct .colon])

/-- A huge integer. -/
def Huge (T : List Lexeme → PSt → Prop) : Prop := ∃ ls v s, T (ls ++ [.num (.nat v)]) s ∧ 2 ^ 63 ≤ v + 1

theorem depth_append (a b : List Lexeme) : depth (a ++ b) = depth a + depth b := by simp [depth]
theorem depth_one (l : Lexeme) : depth [l] = l.bracket := by simp [depth]

/-- At the end of the text with open brackets the loop goes on for ever. -/
theorem wholeLoop_hangs {s : PSt} (h : s.cur.ch = '\x00') (ht : s.tok = .eof) (n : Nat) {d : Int} (hd : d ≠ 0) :
    wholeLoop (jNext fl) n d s = .oof := by
  induction n with
  | zero => rfl
  | succ n ih =>
    show (jNext fl >>= fun _ => if _ = (0 : Int) then Pure.pure () else wholeLoop (jNext fl) n _ : PM Unit) s = _
    rw [M.bind_ok (jNext_eof h)]
    simp only [ht, reduceCtorEq, or_self, if_false, if_neg hd]
    rw [show ({ s with tok := .eof } : PSt) = s by rw [← ht]]
    exact ih

theorem wholeLoop_lexeme (n : Nat) (d : Int) (s : PSt) {l : Lexeme} {sp} (hl : JSpell fl l sp) (ht : s.tok = jtok l) :
    wholeLoop (jNext fl) (n + 1) d s =
      (jNext fl >>= fun _ => if d + l.bracket = 0 then Pure.pure () else wholeLoop (jNext fl) n (d + l.bracket)) s := by
  obtain ⟨_, _, _, _, h5, h6, h7⟩ := hl.tok
  have e : (if s.tok = .blockClose ∨ s.tok = .curlyClose then (if s.tok = .blockOpen ∨ s.tok = .curlyOpen then d + 1 else d) - 1
      else (if s.tok = .blockOpen ∨ s.tok = .curlyOpen then d + 1 else d)) = d + l.bracket := by
    rw [ht]
    rcases h7 with h | h | h
    · rw [if_pos (h5.2 h), if_neg (fun g => by have := h6.1 g; omega), h]
    · rw [if_neg (fun g => by have := h6.1 g; omega), if_neg (fun g => by have := h5.1 g; omega), h]; simp
    · rw [if_pos (h6.2 h), if_neg (fun g => by have := h5.1 g; omega), h]; rfl
  show (jNext fl >>= fun _ => if _ = (0 : Int) then Pure.pure () else wholeLoop (jNext fl) n _ : PM Unit) s = _
  rw [e]

theorem wholeLoop_ends {T W} {P : Prop} (R : Reading fl T W) {pre : List Lexeme} {b : Lexeme} (hb : b.bracket = 1)
    (s : PSt) (xs : List Lexeme) (l : Lexeme) (mid : List Lexeme) (sp : List Char) (hq : xs ++ [l] = b :: mid)
    (hT : T (pre ++ (xs ++ [l])) s) (ht : s.tok = jtok l) (hl : JSpell fl l sp) (hs : ReadI fl T W s)
    (hpos : ∀ ys zs, xs = ys ++ zs → ys ≠ [] → 0 < depth ys) :
    Ends (s.left + 1) (ReadI fl T W) P (Unclosed W) (fun n => wholeLoop (jNext fl) n (depth xs)) s (Le s) := by
  generalize hso : s.left = so
  induction so using Nat.strongRecOn generalizing s xs l mid sp with
  | ind so ih =>
  subst hso
  have hd : depth xs + l.bracket = depth (xs ++ [l]) := by rw [depth_append, depth_one]
  apply Ends.succ
  have hstep := fun n => wholeLoop_lexeme n (depth xs) s hl ht
  refine Ends.congr (x := fun n => jNext fl >>= fun _ =>
    if depth (xs ++ [l]) = 0 then Pure.pure () else wholeLoop (jNext fl) n (depth (xs ++ [l]))) ?_ (fun n => by rw [hstep, hd])
  have L := readI_lexer R
  obtain ⟨hne, _⟩ := hl.tok
  rcases L.run s hs with ⟨s', e, h1, h2⟩ | ⟨e, s', h1⟩
  · have hlt := h2.resolve_right fun g => hne (ht ▸ g.1)
    have hrun : ∀ (g : Nat → PM Unit), Ends s.left (ReadI fl T W) P (Unclosed W) g s' (Le s') →
        Ends s.left (ReadI fl T W) P (Unclosed W) (fun n => jNext fl >>= fun _ => g n) s (Le s) := by
      intro g hg
      obtain ⟨o, g1, g2⟩ := hg.weaken (R := Le s) fun _ _ _ k => Nat.le_of_lt (Nat.lt_of_le_of_lt k hlt)
      exact ⟨o, g1, fun n hn => by
        show (jNext fl >>= fun _ => g n : PM Unit) s = o
        rw [M.bind_ok e]; exact g2 n hn⟩
    refine hrun (fun n => if depth (xs ++ [l]) = 0 then Pure.pure () else wholeLoop (jNext fl) n (depth (xs ++ [l]))) ?_
    by_cases hz : depth (xs ++ [l]) = 0
    · simp only [if_pos hz]; exact Ends.pure h1 (Nat.le_refl _)
    · simp only [if_neg hz]
      have hnn : 0 ≤ depth (xs ++ [l]) := by
        rw [← hd]
        cases xs with
        | nil =>
          injection hq with hq _
          subst hq
          simp [depth, hb]
        | cons x xs =>
          have := hpos (x :: xs) [] (by simp) (by simp)
          rcases hl.tok.2.2.2.2.2.2 with h | h | h <;> omega
      have hpos' : ∀ ys zs, xs ++ [l] = ys ++ zs → ys ≠ [] → 0 < depth ys := by
        intro ys zs hyz hys
        rcases List.append_eq_append_iff.1 hyz with ⟨c, h3, h4⟩ | ⟨c, h3, h4⟩
        · cases c with
          | nil => simp at h3; subst h3; exact hpos ys [] (by simp) hys
          | cons c cs =>
            simp at h4
            obtain ⟨rfl, rfl, rfl⟩ := h4
            rw [h3]; omega
        · exact hpos ys c h3 hys
      rcases R.next _ s s' hT e with ⟨l', g1, g2, sp', g3⟩ | ⟨g1, g2⟩
      · refine (ih s'.left hlt s' (xs ++ [l]) l' (mid ++ [l']) sp' (by rw [hq]; rfl) ?_ g2 g3 h1 hpos' rfl).more hlt
        rw [← List.append_assoc]; exact g1
      · -- the end of the text
        refine ⟨.oof, ⟨_, g2, fun hc => ?_⟩, fun n _ => wholeLoop_hangs (h1.1 g1) g1 n hz⟩
        obtain ⟨m', rest, k1, k2⟩ := hc pre b mid (by rw [hq]) hb
        have := hpos' (b :: m') rest (by rw [hq, k1]; rfl) (by simp)
        omega
  · exact ⟨.err e s', trivial, fun n _ => by
      show (jNext fl >>= fun _ => _ : PM Unit) s = _
      rw [M.bind_def, h1]⟩

theorem read_skips {T W} {P : Prop} (R : Reading fl T W) (hP : BadColon T W → P) :
    SkipsUnknown (jNext fl) (ReadI fl T W) P (Unclosed W) := by
  intro s s' hs hs' ht e
  have hbad : BadColon T W → Ends (s'.left + 1) (ReadI fl T W) P (Unclosed W) (fun _ => (M.panic : PM Unit)) s' (Le s') :=
    fun h => Ends.panic (hP h)
  obtain ⟨ls, hT⟩ : ∃ ls, T (ls ++ [.punct .colon]) s := by
    rcases hs.2 with ⟨_, h⟩ | ⟨ls, l, sp, h1, h2, h3⟩ | ⟨h, _⟩
    · rw [h] at ht; cases ht
    · rw [h3.tok.2.2.1 (h2 ▸ ht)] at h1; exact ⟨ls, h1⟩
    · rw [h] at ht; cases ht
  refine Ends.get ?_
  rcases R.next _ s s' hT e with ⟨l, g1, g2, sp, g3⟩ | ⟨g1, g2⟩
  · have L := readI_lexer R
    have nxt : Ends (s'.left + 1) (ReadI fl T W) P (Unclosed W) (fun _ => jNext fl) s' (Le s') := Ends.next_le L hs'
    have opn : l.bracket = 1 → Ends (s'.left + 1) (ReadI fl T W) P (Unclosed W) (fun n => wholeLoop (jNext fl) n 0) s' (Le s') := fun hb =>
      wholeLoop_ends (pre := ls ++ [.punct .colon]) R hb s' [] l [] sp rfl g1 g2 g3 hs' (by
        intro ys zs h1 h2
        have := List.append_eq_nil_iff.1 h1.symm
        exact absurd this.1 h2)
    have bad : l.startsValue = false → Ends (s'.left + 1) (ReadI fl T W) P (Unclosed W) (fun _ => (M.panic : PM Unit)) s' (Le s') :=
      fun h => hbad (.inl ⟨ls, l, s', by simpa using g1, h⟩)
    rw [g2]
    cases g3 with
    | colon => exact bad rfl
    | comma => exact bad rfl
    | blockOpen => exact opn rfl
    | blockClose => exact bad rfl
    | curlyOpen => exact opn rfl
    | curlyClose => exact bad rfl
    | true => exact nxt
    | false => exact nxt
    | null => exact nxt
    | @num t s h => cases t <;> exact nxt
    | str h => exact nxt
  · rw [g1]
    exact hbad (.inr ⟨_, g2⟩)

theorem initSt_left (f : Nat → Nat) (input : List Char) : (initSt f input).left ≤ input.length + 1 := by
  show (if _ = Tok.eof then 0 else _) ≤ _
  split
  · omega
  · exact Nat.add_le_add_right (by rw [initSt_txt]; exact Nat.le_refl _) 1

theorem enough {r K : Nat} (hr : r ≤ K) {f : Nat → Nat} {input : List Char} {s : PSt} (h : Le (initSt f input) () s) :
    (K + 1) * s.left + r + 1 ≤ (K + 1) * (input.length + 2) := by
  have h0 : s.left ≤ input.length + 1 := Nat.le_trans h (initSt_left f input)
  have h1 : (K + 1) * (s.left + 1) ≤ (K + 1) * (input.length + 2) := Nat.mul_le_mul_left _ (by omega)
  rw [Nat.mul_add] at h1
  omega

/-- The outcome in terms of the lexemes read. -/
theorem read_bound {T W} (R : Reading fl T W) (hw : ProgWf env) {rank : Ty → Nat} (hp : Ranked env rank)
    {S : Ty → Prop} (hS : PartsIn env S) {K : Nat} (hK : ∀ u, S u → rank u ≤ K) (t : Ty) (hSt : S t) (ht : TyWf env t)
    (input : List Char) (h0 : T [] (initSt jcol input)) {D : Prop} (hD : D ∨ NoTime env ∧ noTime t = true) :
    ∃ o, (∀ n, (K + 1) * (input.length + 2) ≤ n → deserializeJson env fl n t input = o) ∧ (o = .panic → BadColon T W ∨ D ∧ Huge T) ∧
      (o = .oof → Unclosed W) := by
  have L := readI_lexer R
  have hI : ReadI fl T W (initSt jcol input) := ⟨by intro h; simp [initSt] at h, .inl ⟨h0, rfl⟩⟩
  have h : Ends ((K + 1) * (input.length + 2)) (ReadI fl T W) (BadColon T W ∨ D ∧ Huge T) (Unclosed W)
      (fun n => jNext fl >>= fun _ => deJson env fl n t) (initSt jcol input) (fun _ _ => True) := by
    refine Ends.bind (f := fun n _ => deJson env fl n t) (Ends.next_le L hI) fun _ s1 h1 l1 => ?_
    refine ((deJson_ends L hw (.inr (read_skips R fun h => .inl h)) (D := D) (fun hd => ?_) (hD.imp id And.left) hp hS hK t ht hSt
      (hD.imp id And.right) s1 h1).weaken fun _ _ _ _ => trivial).more (enough (hK t hSt) l1)
    by_cases hH : Huge T
    · exact .inl (.inr ⟨hd, hH⟩)
    · refine .inr fun s v hs htk => ?_
      rcases hs.2 with ⟨_, h⟩ | ⟨ls, l, sp, g1, g2, g3⟩ | ⟨h, _⟩
      · rw [h] at htk; cases htk
      · have := g3.tok.2.2.2.1 v (g2 ▸ htk)
        subst this
        refine Decidable.not_not.1 fun hn => hH ⟨ls, v, s, g1, by omega⟩
      · rw [h] at htk; cases htk
  obtain ⟨o, g1, g2⟩ := h
  refine ⟨o, g2, ?_, ?_⟩
  · rintro rfl; exact g1
  · rintro rfl; exact g1

/-- A bound for the ranks of the types of a program. -/
theorem Productive.bound (hp : Productive env) (t : Ty) :
    ∃ (rank : Ty → Nat) (K : Nat), Ranked env rank ∧ ∀ u, u ∈ progTys env t → rank u ≤ K := by
  obtain ⟨rank, h⟩ := hp
  obtain ⟨K, hK⟩ := bounded_on rank (progTys env t)
  exact ⟨rank, K, h, hK⟩

/-- The same, without the bound. -/
theorem read_outcome {T W} (R : Reading fl T W) (hw : ProgWf env) (hp : Productive env) (t : Ty) (ht : TyWf env t)
    (input : List Char) (h0 : T [] (initSt jcol input)) {D : Prop} (hD : D ∨ NoTime env ∧ noTime t = true) :
    ∃ N o, (∀ n, N ≤ n → deserializeJson env fl n t input = o) ∧ (o = .panic → BadColon T W ∨ D ∧ Huge T) ∧
      (o = .oof → Unclosed W) := by
  obtain ⟨rank, K, hr, hK⟩ := hp.bound t
  exact ⟨_, read_bound R hw hr (progTys_closed env t) hK t (progTys_self env t) ht input h0 hD⟩

/-- Reading from a state of the lexer. -/
theorem json_ends {I : PSt → Prop} {P H : Prop} (L : Lexer (jNext fl) I) (hw : ProgWf env) (hp : Productive env)
    (hW : NoNamed env ∨ SkipsUnknown (jNext fl) I P H) {D : Prop} (hD : D → P ∨ ∀ t v, I t → t.tok = .u64 v → v + 1 < 2 ^ 63)
    {t : Ty} (ht : TyWf env t) (hDt : D ∨ NoTime env ∧ noTime t = true) {input : List Char} (hI : I (initSt jcol input)) :
    ∃ N o, (∀ n, N ≤ n → deserializeJson env fl n t input = o) ∧ (o = .panic → P) ∧ (o = .oof → H) := by
  obtain ⟨rank, K, hr, hK⟩ := hp.bound t
  have h : Ends ((K + 1) * (input.length + 2)) I P H (fun n => jNext fl >>= fun _ => deJson env fl n t) (initSt jcol input)
      (fun _ _ => True) := by
    refine Ends.bind (f := fun n _ => deJson env fl n t) (Ends.next_le L hI) fun _ s1 h1 l1 => ?_
    exact ((deJson_ends L hw hW hD (hDt.imp id And.left) hr (progTys_closed env t) hK t ht (progTys_self env t)
      (hDt.imp id And.right) s1 h1).weaken fun _ _ _ _ => trivial).more (enough (hK t (progTys_self env t)) l1)
  obtain ⟨o, g1, g2⟩ := h
  refine ⟨_, o, g2, ?_, ?_⟩
  · rintro rfl; exact g1
  · rintro rfl; exact g1

/-- The lexemes a run has read. -/
theorem scan_reading (hfl : FloatLaws fl) (input : List Char) :
    Reading fl (fun ls s => JScan fl ls input s.cur.txt) (fun ls => JWhole fl ls input) where
  setStr _ _ _ h := h
  next ls s s' hT e := by
    rcases jNext_sound hfl e with ⟨l, h1, h2, _⟩ | ⟨h1, h2⟩
    · refine .inl ⟨l, hT.append h1, h2, ?_⟩
      generalize s.cur.txt = a at h1
      cases h1 with
      | cons _ h _ _ => exact ⟨_, h⟩
    · exact .inr ⟨h1, _, hT, h2⟩

/-- The lexemes of a given document. -/
theorem full_reading {ls : List Lexeme} {w : List Char} (hw : LayoutEnd w) :
    Reading fl (fun pre s => ∃ post, ls = pre ++ post ∧ JDoc fl post s.cur.txt w) (fun pre => pre = ls) where
  setStr _ _ _ h := h
  next pre s s' hT e := by
    obtain ⟨post, h1, h2⟩ := hT
    generalize ht : s.cur.txt = tx at h2
    cases h2 with
    | nil =>
      obtain ⟨c, _, h4⟩ := hw.tokAt (fl := fl) s ht
      rw [h4] at e
      injection e with _ e
      subst e
      exact .inr ⟨rfl, by simpa using h1.symm⟩
    | @cons l ls' w' sp r _ k1 k2 k3 k4 =>
      obtain ⟨c, h3, h4⟩ := (k1.tokAt (k2.tokAt k3)) s (by rw [ht]; simp)
      rw [h4] at e
      injection e with _ e
      subst e
      exact .inl ⟨l, ⟨ls', by rw [h1]; simp, by simpa [h3] using k4⟩, rfl, _, k2⟩

end NS
