import Verif.Lemmas.CurRel
import Verif.Lemmas.JsonBadNum
import Verif.Spec.Layout
/-! Layout is irrelevant. -/
namespace NS
variable {env : Env} {fl : FloatOps}

/-- Same remaining text. -/
def sameTxt (k : Nat → Nat) : CurRel k where
  Q c c' := c'.txt = c.txt
  txt h := h
  next h := by simp [h]

/-- A simulation between readers at texts related by `D`. -/
def docSim (D : List Char → List Char → Prop) (P : Prop) : Sim where
  R s s' := D s.cur.txt s'.cur.txt ∧ s'.tok = s.tok ∧ s'.strbuf = s.strbuf ∧ s'.identbuf = s.identbuf
  E e e' := e'.msg = e.msg
  P := P
  tok h := h.2.1
  str h := h.2.2.1
  ident h := h.2.2.2
  setStr _ h := ⟨h.1, h.2.1, rfl, h.2.2.2⟩
  err _ _ := rfl

/-- From equal texts to any relation that contains equality. -/
theorem docSim_same {k} {D : List Char → List Char → Prop} (hD : ∀ t, D t t) {α : Type} {x y : Out PErr PSt α}
    (h : OutRel ((sameTxt k).sim True) x y) : OutRel (docSim D True) x y := by
  cases x <;> cases y <;> simp only [OutRel, show ((sameTxt k).sim True).X = False from rfl, false_or] at h ⊢
  · obtain ⟨rfl, h1, h2⟩ := h
    refine ⟨rfl, ?_, h2⟩
    simp only [sameTxt] at h1
    rw [h1]; exact hD _
  · obtain ⟨⟨e, _⟩, h1, h2⟩ := h
    refine .inr ⟨e, ?_, h2⟩
    simp only [sameTxt] at h1
    rw [h1]; exact hD _
  · trivial

theorem sameTokens_refl (t : List Char) : SameTokens fl t t := ⟨[], t, t, .nil, .nil, .inl ⟨[], [], t, .nil, .nil, rfl, rfl⟩⟩

theorem sameTokens_symm {t t' : List Char} (h : SameTokens fl t t') : SameTokens fl t' t := by
  obtain ⟨ls, a, b, h1, h2, h3⟩ := h
  refine ⟨ls, b, a, h2, h1, ?_⟩
  rcases h3 with ⟨w, w', r, hw, hw', e, e'⟩ | ⟨h, h'⟩
  · exact .inl ⟨w', w, r, hw', hw, e', e⟩
  · exact .inr ⟨h', h⟩

theorem jNext_layout (fl : FloatOps) : Rel (docSim (SameTokens fl) True) (jNext fl) (jNext fl) := by
  rintro s s' ⟨⟨ls, t, t', h1, h2, h3⟩, ht, hs, hi⟩
  cases ls with
  | cons l ls =>
    generalize e1 : s.cur.txt = a at h1
    generalize e2 : s'.cur.txt = b at h2
    cases h1 with
    | cons _ _ _ h1' =>
    cases h2 with
    | cons _ _ _ h2' =>
    rename_i w sp r hw hsp hsep w' sp' r' hw' hsp' hsep'
    obtain ⟨c, hc, e⟩ := hw.tokAt (hsp.tokAt hsep) s (by rw [e1, List.append_assoc])
    obtain ⟨c', hc', e'⟩ := hw'.tokAt (hsp'.tokAt hsep') s' (by rw [e2, List.append_assoc])
    rw [e, e']
    refine ⟨rfl, ?_, rfl, ?_, ?_⟩
    · simp only [hc, hc']; exact ⟨ls, t, t', h1', h2', h3⟩
    · simp [hs]
    · simp [hi]
  | nil =>
    have e1 : s.cur.txt = t := by generalize s.cur.txt = a at h1; cases h1; rfl
    have e2 : s'.cur.txt = t' := by generalize s'.cur.txt = a at h2; cases h2; rfl
    rcases h3 with ⟨w, w', r, hw, hw', rfl, rfl⟩ | ⟨h, h'⟩
    · obtain ⟨c, hc, e⟩ := hw.skip (fl := fl) e1
      obtain ⟨c', hc', e'⟩ := hw'.skip (fl := fl) e2
      rw [e, e']
      refine docSim_same sameTokens_refl (CurRel.jNext (C := sameTxt jcol) fl _ _ ⟨?_, ht, hs, hi⟩)
      simp [sameTxt, hc, hc']
    · obtain ⟨c, hc, e⟩ := h.tokAt (fl := fl) s e1
      obtain ⟨c', hc', e'⟩ := h'.tokAt (fl := fl) s' e2
      rw [e, e']
      refine ⟨rfl, ?_, rfl, by simp [hs], by simp [hi]⟩
      simp only [hc, hc']; exact sameTokens_refl []

theorem initSt_txt (k : Nat → Nat) (input : List Char) : (initSt k input).cur.txt = input := by
  simp [initSt]

theorem deserializeJson_layout {txt txt' : List Char} (h : SameTokens fl txt txt') {n m : Nat} (hnm : n ≤ m) (t : Ty) :
    OutRel (docSim (SameTokens fl) True) (deserializeJson env fl n t txt) (deserializeJson env fl m t txt') := by
  refine Rel.bind (jNext_layout fl) (fun _ => deJson_rel env fl (jNext_layout fl) n m t hnm (.inl trivial)) _ _ ?_
  refine ⟨?_, rfl, rfl, rfl⟩
  rw [initSt_txt, initSt_txt]; exact h

theorem sameResult_of {f g : Nat → Out PErr PSt Val} {D P D' P'} (h : ∀ n m, n ≤ m → OutRel (docSim D P) (f n) (g m))
    (h' : ∀ n m, n ≤ m → OutRel (docSim D' P') (g n) (f m)) : SameResult f g := by
  have half : ∀ {f g : Nat → Out PErr PSt Val} {D P}, (∀ n m, n ≤ m → OutRel (docSim D P) (f n) (g m)) →
      (∀ v, Decodes f v → Decodes g v) ∧ (∀ why, RejectsWith f why → RejectsWith g why) ∧
      (Panics f → Panics g) ∧ (Hangs g → Hangs f) := by
    intro f g D P h
    refine ⟨fun v hv => ?_, fun why hr => ?_, fun hp => ?_, fun hg n => ?_⟩
    · obtain ⟨n, hv⟩ := hv
      refine ⟨n, fun m hm => ?_⟩
      obtain ⟨s, e⟩ := hv m hm
      have := h m m (Nat.le_refl _)
      rw [e] at this
      cases e' : g m with
      | ok a s' => rw [e'] at this; rw [this.1]; exact ⟨s', rfl⟩
      | _ => rw [e'] at this; exact this.elim
    · obtain ⟨n, hv⟩ := hr
      refine ⟨n, fun m hm => ?_⟩
      obtain ⟨l, c, s, e⟩ := hv m hm
      have := h m m (Nat.le_refl _)
      rw [e] at this
      cases e' : g m with
      | err a s' =>
        rw [e'] at this
        obtain ⟨l', c', m'⟩ := a
        have := (this.resolve_left id).1
        simp only [docSim] at this
        subst this
        exact ⟨l', c', s', rfl⟩
      | _ => rw [e'] at this; exact this.elim
    · obtain ⟨n, hv⟩ := hp
      refine ⟨n, fun m hm => ?_⟩
      have := h m m (Nat.le_refl _)
      rw [hv m hm] at this
      cases e' : g m with
      | panic => rfl
      | _ => rw [e'] at this; exact this.elim
    · have := h n n (Nat.le_refl _)
      rw [hg n] at this
      cases e : f n with
      | oof => rfl
      | _ => rw [e] at this; exact this.elim
  obtain ⟨a1, a2, a3, a4⟩ := half h
  obtain ⟨b1, b2, b3, b4⟩ := half h'
  exact ⟨fun v => ⟨a1 v, b1 v⟩, fun w => ⟨a2 w, b2 w⟩, ⟨a3, b3⟩, ⟨b4, a4⟩⟩

theorem json_layout {txt txt' : List Char} (h : SameTokens fl txt txt') (t : Ty) :
    SameResult (fun n => deserializeJson env fl n t txt) (fun n => deserializeJson env fl n t txt') :=
  sameResult_of (fun _ _ hnm => deserializeJson_layout h hnm t)
    (fun _ _ hnm => deserializeJson_layout (sameTokens_symm h) hnm t)

end NS
