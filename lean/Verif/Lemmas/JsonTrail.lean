import Verif.Lemmas.JsonStuck
/-! What follows a JSON value. -/
namespace NS
variable {env : Env} {fl : FloatOps}

/-- Two texts with the same lexemes; the first goes on with `rest`. -/
def trailSim (fl : FloatOps) (rest w : List Char) : Sim where
  R s s' := (∃ post, JDoc fl post s.cur.txt rest ∧ JDoc fl post s'.cur.txt w) ∧ s.tok ≠ .eof ∧ s'.tok = s.tok ∧
    s'.strbuf = s.strbuf ∧ s'.identbuf = s.identbuf
  E _ _ := True
  P := True
  X := True
  tok h := h.2.2.1
  str h := h.2.2.2.1
  ident h := h.2.2.2.2
  setStr _ h := ⟨h.1, h.2.1, h.2.2.1, rfl, h.2.2.2.2⟩
  err _ _ := trivial

theorem jNext_illegible (hfl : FloatLaws fl) {s : PSt} (h : Illegible fl s.cur.txt) : ∃ e s', jNext fl s = .err e s' := by
  rcases jNext_total (fl := fl) s with ⟨s', e⟩ | h'
  · rcases jNext_sound hfl e with ⟨l, h1, _⟩ | ⟨_, h1⟩
    · exact absurd ⟨l, _, h1⟩ h.1
    · exact absurd h1 h.2
  · exact h'

theorem jNext_trail (hfl : FloatLaws fl) {rest w : List Char} (hr : Illegible fl rest) :
    Rel (trailSim fl rest w) (jNext fl) (jNext fl) := by
  intro s s' hs
  obtain ⟨⟨post, h1, h2⟩, h3, h4, h5, h6⟩ := hs
  generalize e : s.cur.txt = a at h1
  generalize e' : s'.cur.txt = a' at h2
  cases h1 with
  | nil =>
    obtain ⟨x, y, h⟩ := jNext_illegible hfl (s := s) (by rw [e]; exact hr)
    rw [h]
    exact OutRel.ofX trivial _ _ _
  | @cons l ls w1 sp r _ k1 k2 k3 k4 =>
    cases h2 with
    | cons g1 g2 g3 g4 =>
      obtain ⟨c, q1, q2⟩ := (k1.tokAt (k2.tokAt k3)) s (by rw [e]; simp)
      obtain ⟨c', q1', q2'⟩ := (g1.tokAt (g2.tokAt g3)) s' (by rw [e']; simp)
      rw [q2, q2']
      refine ⟨rfl, ⟨ls, by simpa [q1] using k4, by simpa [q1'] using g4⟩, k2.tok.1, rfl, ?_, ?_⟩
      · simp [h5]
      · simp [h6]

/-- The text ends in something illegible. -/
theorem illegible_outcome (hfl : FloatLaws fl) (hw : ProgWf env) (hp : Productive env) {t : Ty} (ht : TyWf env t) {J : JTree}
    {txt rest good : List Char} (hx : JDoc fl J.lexemes txt rest) (hr : Illegible fl rest) (hg : JText fl J good) {v : Val}
    (hv : Decodes (fun n => deserializeJson env fl n t good) v) : Rejects (fun n => deserializeJson env fl n t txt) := by
  have R : Reading fl (fun pre s => ∃ post, J.lexemes = pre ++ post ∧ JDoc fl post s.cur.txt rest) (fun _ => False) := by
    refine ⟨?_, fun _ _ _ h => h⟩
    intro pre s s' hT e
    obtain ⟨post, h1, h2⟩ := hT
    generalize ht : s.cur.txt = tx at h2
    cases h2 with
    | nil =>
      obtain ⟨x, y, h⟩ := jNext_illegible hfl (s := s) (by rw [ht]; exact hr)
      rw [h] at e; cases e
    | @cons l ls' w' sp r _ k1 k2 k3 k4 =>
      obtain ⟨c, h3, h4⟩ := (k1.tokAt (k2.tokAt k3)) s (by rw [ht]; simp)
      rw [h4] at e
      injection e with _ e
      subst e
      exact .inl ⟨l, ⟨ls', by rw [h1]; simp, by simpa [h3] using k4⟩, rfl, _, k2⟩
  obtain ⟨N, o, h1, h2, h3⟩ := read_outcome R hw hp t ht txt (by rw [initSt_txt]; exact ⟨_, rfl, hx⟩) (D := True) (.inl trivial)
  obtain ⟨w, hlw, hgd⟩ := hg
  obtain ⟨M, hM⟩ := hv
  have hrel := fun n => (Rel.bind (jNext_trail (w := w) hfl hr) fun _ =>
    deJson_rel (S := trailSim fl rest w) env fl (jNext_trail hfl hr) n n t (Nat.le_refl _) (.inl trivial))
    (initSt jcol txt) (initSt jcol good) ⟨⟨_, by rw [initSt_txt]; exact hx, by rw [initSt_txt]; exact hgd⟩, by simp [initSt],
      rfl, rfl, rfl⟩
  have hk : ∀ n, N ≤ n → M ≤ n → OutRel (trailSim fl rest w) o (deserializeJson env fl n t good) := by
    intro n hn _
    have := hrel n
    rw [← h1 n hn]
    exact this
  obtain ⟨n0, hdec⟩ := (den_spec (fl := fl) hw hp ht (some J)).2
  have hden := (den_decodes hw hp ht ⟨w, hlw, hgd⟩).1 ⟨M, hM⟩
  obtain ⟨s1, e1, p1⟩ := deserializeJson_start (fl := fl) (J := J) ⟨w, hlw, hgd⟩
  -- enough fuel for everything
  let m := N + M + n0 + J.lexemes.length
  obtain ⟨s, hs⟩ := hM m (by omega)
  have hag := (deJson_readsAt env fl n0 t).1 J m (by omega) s1 [.eof] [] ⟨_, _, rfl, by simp [IsFollow]⟩ p1
  rw [hdec n0 (Nat.le_refl _), hden] at hag
  obtain ⟨s', hs', hpos⟩ := hag
  have e2 : deserializeJson env fl m t good = .ok v s' := by
    unfold deserializeJson; rw [NS.M.bind_ok e1]; exact hs'
  have hout := hk m (by omega) (by omega)
  rw [e2] at hout
  cases o with
  | ok a b =>
    have := hout.2.2.2.1
    have h' := hpos.tok
    rw [h'] at this
    exact absurd this.symm hout.2.2.1
  | err a b => exact ⟨N, fun n hn => ⟨a, b, h1 n hn⟩⟩
  | panic => exact hout.elim
  | oof => obtain ⟨_, hF, _⟩ := h3 rfl; exact hF.elim

/-- The value is followed by one of `, : ] }` and then anything. -/
theorem trailing_outcome (hw : ProgWf env) (hp : Productive env) {t : Ty} (ht : TyWf env t) {J : JTree}
    {txt rest : List Char} {l : Lexeme} (hl : IsFollow l) (hx : JDoc fl (J.lexemes ++ [l]) txt rest) :
    (∀ v, den env fl t (some J) = .ok v → Decodes (fun n => deserializeJson env fl n t txt) v) ∧
    (den env fl t (some J) = .err → Rejects (fun n => deserializeJson env fl n t txt)) ∧
    (den env fl t (some J) = .panic → Panics (fun n => deserializeJson env fl n t txt)) := by
  obtain ⟨n0, hdec⟩ := (den_spec (fl := fl) hw hp ht (some J)).2
  have hs := hx.stream
  obtain ⟨l0, ls, el⟩ : ∃ l0 ls, J.lexemes ++ [l] = l0 :: ls := by
    cases e : J.lexemes ++ [l] with
    | nil => simp at e
    | cons l ls => exact ⟨l, ls, rfl⟩
  have hst : ∃ s1, jNext fl (initSt jcol txt) = .ok () s1 ∧ JPos fl s1 (J.lexemes ++ [l]) rest := by
    rw [el] at hs ⊢
    exact hs.start (by cases txt <;> simp [initSt, Cur.next]; split <;> rfl)
  obtain ⟨s1, e1, p1⟩ := hst
  have key : ∀ m, n0 + J.lexemes.length ≤ m → Agree (deserializeJson env fl m t txt) (den env fl t (some J)) (fun _ => True) := by
    intro m hm
    have hag := (deJson_readsAt env fl n0 t).1 J m hm s1 [l] rest ⟨_, _, rfl, hl⟩ p1
    rw [hdec n0 (Nat.le_refl _)] at hag
    have : deserializeJson env fl m t txt = deJson env fl m t s1 := by unfold deserializeJson; rw [M.bind_ok e1]
    rw [this]
    exact hag.mono fun _ _ => trivial
  refine ⟨fun v h => ⟨n0 + J.lexemes.length, fun n hn => ?_⟩, fun h => ⟨n0 + J.lexemes.length, fun n hn => ?_⟩,
    fun h => ⟨n0 + J.lexemes.length, fun n hn => ?_⟩⟩
  · have := key n hn; rw [h] at this; obtain ⟨s, e, _⟩ := this; exact ⟨s, e⟩
  · have := key n hn; rw [h] at this; exact this
  · have := key n hn; rw [h] at this; exact this

end NS
