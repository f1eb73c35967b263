import Verif.Lemmas.CutDeJson
/-! Reading a JSON text that breaks off. -/
namespace NS
variable {fl : FloatOps} {env : Env}

theorem json_cut_outcome (hfl : FloatLaws fl) (hw : ProgWf env) (hp : Productive env) {t : Ty} (ht : TyWf env t) {J : JTree}
    (hT : ¬ Trips env t J) {p q rest : List Char} (hx : JScan fl J.lexemes (p ++ q) rest) :
    ∃ N o, (∀ n, N ≤ n → deserializeJson env fl n t p = o) ∧ o ≠ .panic ∧ o ≠ .oof := by
  obtain ⟨rank, K, hr, hK⟩ := hp.bound t
  have h : Cuts ((K + 1) * sizeOf J + rank t + 1) (fun n => jNext fl >>= fun _ => deJson env fl n t) (initSt jcol p) (fun _ _ => True) := by
    refine Ends.bind (f := fun n _ => deJson env fl n t) Cuts.nx fun _ s1 _ e1 => ?_
    have hF : JFeeds fl (J.lexemes ++ []) s1 := by
      rw [List.append_nil]
      exact (hx.ahead hfl).next' (initSt_txt jcol p) e1
    exact (cut_follows hfl hw hr (progTys_closed env t) hK J t ht (progTys_self env t) hT s1 [] hF).weaken fun _ _ _ _ => trivial
  obtain ⟨o, g1, g2⟩ := h
  refine ⟨_, o, g2, ?_, ?_⟩
  · rintro rfl; exact g1
  · rintro rfl; exact g1

theorem json_cut_rejects (hfl : FloatLaws fl) (hw : ProgWf env) (hp : Productive env) {t : Ty} (ht : TyWf env t) {J : JTree}
    (hT : ¬ Trips env t J) {p q rest : List Char} (hx : JScan fl J.lexemes (p ++ q) rest)
    (hno : ∀ n v s, deserializeJson env fl n t p ≠ .ok v s) : Rejects (fun n => deserializeJson env fl n t p) := by
  obtain ⟨N, o, h, h1, h2⟩ := json_cut_outcome hfl hw hp ht hT hx
  cases o with
  | ok v s => exact absurd (h N (Nat.le_refl _)) (hno N v s)
  | err e s => exact ⟨N, fun n hn => ⟨e, s, h n hn⟩⟩
  | panic => exact absurd rfl h1
  | oof => exact absurd rfl h2

end NS
