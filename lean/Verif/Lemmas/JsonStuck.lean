import Verif.Lemmas.JsonBalance
import Verif.Lemmas.JsonMissing
/-! The member of an unknown key that is not a JSON value. -/
namespace NS
variable {env : Env} {fl : FloatOps}

theorem wholeLoop_open {w : List Char} (hw : LayoutEnd w) (post : List Lexeme) (s : PSt) (hd : JDoc fl post s.cur.txt w)
    (d : Int) {l : Lexeme} {sp} (hl : JSpell fl l sp) (ht : s.tok = jtok l)
    (h : ∀ mid rest, post = mid ++ rest → d + depth (l :: mid) ≠ 0) (n : Nat) :
    wholeLoop (jNext fl) n d s = .oof := by
  induction post generalizing s d l sp n with
  | nil =>
    cases n with
    | zero => rfl
    | succ n =>
      generalize e : s.cur.txt = tx at hd
      cases hd
      obtain ⟨c, h1, h2⟩ := hw.tokAt (fl := fl) s e
      have hz : d + l.bracket ≠ 0 := by simpa [depth] using h [] [] rfl
      rw [wholeLoop_lexeme n d s hl ht, M.bind_ok h2, if_neg hz]
      exact wholeLoop_hangs (by simp [Cur.ch, h1]) rfl n hz
  | cons l' post ih =>
    cases n with
    | zero => rfl
    | succ n =>
      generalize e : s.cur.txt = tx at hd
      cases hd with
      | cons k1 k2 k3 k4 =>
        obtain ⟨c, h1, h2⟩ := (k1.tokAt (k2.tokAt k3)) s (by rw [e]; simp)
        have hz : d + l.bracket ≠ 0 := by simpa [depth] using h [] _ rfl
        rw [wholeLoop_lexeme n d s hl ht, M.bind_ok h2, if_neg hz]
        refine ih _ (by simpa [h1] using k4) _ k2 rfl ?_ n
        intro mid rest hm
        have := h (l' :: mid) rest (by simp [hm])
        simp only [depth, List.map_cons, List.sum_cons] at this ⊢
        omega

theorem JDoc.step {l : Lexeme} {ls : List Lexeme} {s : PSt} {w : List Char} (h : JDoc fl (l :: ls) s.cur.txt w) :
    ∃ s' : PSt, jNext fl s = .ok () s' ∧ JDoc fl ls s'.cur.txt w ∧ s'.tok = jtok l ∧ (∃ sp, JSpell fl l sp) ∧
      ∀ k, l = .str k → s'.strbuf = k := by
  generalize e : s.cur.txt = tx at h
  cases h with
  | cons k1 k2 k3 k4 =>
    obtain ⟨c, h1, h2⟩ := (k1.tokAt (k2.tokAt k3)) s (by rw [e]; simp)
    refine ⟨_, h2, by simpa [h1] using k4, rfl, ⟨_, k2⟩, ?_⟩
    rintro k rfl
    rfl

theorem findField_none {fs : List Field} {key : List Char} (hk : ∀ f ∈ fs, f.skip = false → f.key ≠ key) :
    findField fs key = none := by
  unfold findField
  rw [List.findIdx?_eq_none_iff]
  intro f hf
  cases hs : f.skip with
  | true => rfl
  | false => simpa using hk f hf hs

/-- The reader of a struct whose first key is unknown arrives at the value of that key. -/
theorem struct_unknown {i : Nat} {fs cd nul} (hd : env.defs[i]? = some (.struct fs cd nul)) (hne : fs ≠ []) {key : List Char}
    (hk : ∀ f ∈ fs, f.skip = false → f.key ≠ key) {post : List Lexeme} {txt w : List Char}
    (hx : JDoc fl (.punct .curlyOpen :: .str key :: .punct .colon :: post) txt w) :
    ∃ s₀ : PSt, JDoc fl post s₀.cur.txt w ∧ ∀ n, n < 2 ∧ deserializeJson env fl n (.named i) txt = .oof ∨
      ∃ m K, n = m + 2 ∧ deserializeJson env fl n (.named i) txt =
        (jNext fl >>= fun _ => wholeField (jNext fl) (m + 1) >>= K : PM Val) s₀ := by
  obtain ⟨s1, e1, d1, t1, _⟩ := JDoc.step (fl := fl) (s := initSt jcol txt) (w := w) (by simpa [initSt_txt] using hx)
  obtain ⟨s2, e2, d2, t2, _, b2⟩ := d1.step
  obtain ⟨s3, e3, d3, t3, _⟩ := d2.step
  have b2 := b2 _ rfl
  refine ⟨s3, d3, fun n => ?_⟩
  have eo : ∀ {α : Type} (f : Unit → PM α), (curlyOpen (jNext fl) >>= f) s1 = f () s2 := by
    intro α f
    rw [M.bind_ok]
    show (if s1.tok = Tok.curlyOpen then jNext fl else errToken "{" : PM Unit) s1 = _
    rw [if_pos (by rw [t1]; rfl)]; exact e2
  match n with
  | 0 => exact .inl ⟨by omega, by unfold deserializeJson; rw [M.bind_ok e1]; rfl⟩
  | 1 =>
    refine .inl ⟨by omega, ?_⟩
    unfold deserializeJson
    rw [M.bind_ok e1, deJson]
    simp only [hd, deJsonNamed, M.bind_assoc]
    rw [eo]
    rfl
  | m + 2 =>
    refine .inr ⟨m, ?_⟩
    have : ∃ K, (deJson env fl (m + 2) (.named i)) s1 = (jNext fl >>= fun _ => wholeField (jNext fl) (m + 1) >>= K : PM Val) s3 := by
      rw [deJson]
      simp only [hd, deJsonNamed, M.bind_assoc]
      rw [eo]
      have hstr : s2.tok = .str := t2
      have hw1 : ∀ (f : List (Option Val) → PM Val) acc, (whileIs .str (jMember (jNext fl) (m + 1) (deJson env fl (m + 1)) fs) (m + 1) acc >>= f) s2 =
          (jMember (jNext fl) (m + 1) (deJson env fl (m + 1)) fs acc >>= fun acc' =>
            whileIs .str (jMember (jNext fl) (m + 1) (deJson env fl (m + 1)) fs) m acc' >>= f) s2 := by
        intro f acc
        rw [whileIs, M.bind_assoc]
        show ((if s2.tok = .str then _ else _ : PM _) >>= f) s2 = _
        rw [if_pos hstr, M.bind_assoc]
      rw [hw1]
      have hm : ∀ acc, jMember (jNext fl) (m + 1) (deJson env fl (m + 1)) fs acc s2 =
          (jNext fl >>= fun _ => wholeField (jNext fl) (m + 1) >>= fun _ => (do eatCommaCurly (jNext fl); pure acc) : PM _) s3 := by
        intro acc
        unfold jMember
        show (jMemberValue (jNext fl) (m + 1) (deJson env fl (m + 1)) fs acc s2.strbuf >>= _ : PM _) s2 = _
        unfold jMemberValue
        rw [b2, if_neg (by simpa using hne), findField_none hk]
        simp only [nextColon, M.bind_assoc, M.pure_bind]
        rw [M.bind_ok e3]
        have : colon (jNext fl) s3 = jNext fl s3 := by
          show (if s3.tok = Tok.colon then jNext fl else errToken ":" : PM Unit) s3 = _
          rw [if_pos (by rw [t3]; rfl)]
        rw [M.bind_def, this, M.bind_def]
      rw [M.bind_def, hm]
      rw [← M.bind_def]
      simp only [M.bind_assoc, M.pure_bind]
      exact ⟨_, rfl⟩
    obtain ⟨K, hK⟩ := this
    exact ⟨K, rfl, by unfold deserializeJson; rw [M.bind_ok e1]; exact hK⟩

/-- An unknown key with an unclosed bracket: the reader never returns. -/
theorem struct_unknown_open {i : Nat} {fs cd nul} (hd : env.defs[i]? = some (.struct fs cd nul)) (hne : fs ≠ []) {key : List Char}
    (hk : ∀ f ∈ fs, f.skip = false → f.key ≠ key) {b : Lexeme} {post : List Lexeme} {txt : List Char}
    (hx : JFull fl (.punct .curlyOpen :: .str key :: .punct .colon :: b :: post) txt) (hb : b.bracket = 1)
    (hn : NeverClosed b post) (n : Nat) : deserializeJson env fl n (.named i) txt = .oof := by
  obtain ⟨w, hw, hx⟩ := hx
  obtain ⟨s, h1, h2⟩ := struct_unknown hd hne hk hx
  obtain ⟨s', e, d, t, ⟨sp, hsp⟩, _⟩ := h1.step
  rcases h2 n with h | ⟨m, K, _, h⟩
  · exact h.2
  · rw [h, M.bind_ok e]
    have hwl := wholeLoop_open hw post s' d 0 hsp t (fun mid rest hm => by simpa using hn mid rest hm) (m + 1)
    have : wholeField (jNext fl) (m + 1) s' = .oof := by
      rw [← hwl]
      have := hsp.tok.2.2.2.2.1.2 hb
      unfold wholeField
      rw [M.bind_ok (rfl : (M.get : PM PSt) s' = .ok s' s'), t]
      rcases this with h | h <;> rw [h]
    rw [M.bind_def, this]

/-- An unknown key without a value: the reader panics. -/
theorem struct_unknown_bad {i : Nat} {fs cd nul} (hd : env.defs[i]? = some (.struct fs cd nul)) (hne : fs ≠ []) {key : List Char}
    (hk : ∀ f ∈ fs, f.skip = false → f.key ≠ key) {b : Lexeme} {post : List Lexeme} {txt : List Char} {w : List Char}
    (hx : JDoc fl (.punct .curlyOpen :: .str key :: .punct .colon :: b :: post) txt w) (hb : b.startsValue = false) (n : Nat) (hn : 2 ≤ n) :
    deserializeJson env fl n (.named i) txt = .panic := by
  obtain ⟨s, h1, h2⟩ := struct_unknown hd hne hk hx
  obtain ⟨s', e, d, t, ⟨sp, hsp⟩, _⟩ := h1.step
  rcases h2 n with h | ⟨m, K, _, h⟩
  · omega
  · rw [h, M.bind_ok e]
    have : wholeField (jNext fl) (m + 1) s' = .panic := by
      unfold wholeField
      rw [M.bind_ok (rfl : (M.get : PM PSt) s' = .ok s' s'), t]
      cases hsp <;> first | (simp [Lexeme.startsValue] at hb; done) | rfl
    rw [M.bind_def, this]

end NS
