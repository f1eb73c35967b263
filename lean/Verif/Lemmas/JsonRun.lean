import Verif.Lemmas.Sim
import Verif.Lemmas.JsonTotal
import Verif.Spec.TextErr
import Verif.Lemmas.Run
/-! One run with enough fuel decides the outcome; facts about every successful run. -/
namespace NS
variable {env : Env} {fl : FloatOps} {t : Ty} {inp : List Char}

theorem decodes_of_run {n v s} (h : deserializeJson env fl n t inp = .ok v s) :
    Decodes (fun n => deserializeJson env fl n t inp) v :=
  ⟨n, fun m hm => ⟨s, (deserializeJson_mono env fl hm t inp (by rw [h]; simp)).trans h⟩⟩

theorem rejects_of_run {n e s} (h : deserializeJson env fl n t inp = .err e s) :
    Rejects (fun n => deserializeJson env fl n t inp) :=
  ⟨n, fun m hm => ⟨e, s, (deserializeJson_mono env fl hm t inp (by rw [h]; simp)).trans h⟩⟩

theorem rejectsWith_of_run {n l c why s} (h : deserializeJson env fl n t inp = .err ⟨l, c, why⟩ s) :
    RejectsWith (fun n => deserializeJson env fl n t inp) why :=
  ⟨n, fun m hm => ⟨l, c, s, (deserializeJson_mono env fl hm t inp (by rw [h]; simp)).trans h⟩⟩

theorem panics_of_run {n} (h : deserializeJson env fl n t inp = .panic) :
    Panics (fun n => deserializeJson env fl n t inp) :=
  ⟨n, fun m hm => (deserializeJson_mono env fl hm t inp (by rw [h]; simp)).trans h⟩

theorem json_ok (n : Nat) (v : Val) (h : (deserializeJson env fl n t inp).isOk v = true) :
    Decodes (fun n => deserializeJson env fl n t inp) v := by
  obtain ⟨s, h⟩ := Out.isOk_spec h
  exact decodes_of_run h

theorem json_err (n : Nat) (why : Reason) (h : (deserializeJson env fl n t inp).isErr why = true) :
    RejectsWith (fun n => deserializeJson env fl n t inp) why := by
  obtain ⟨l, c, s, h⟩ := Out.isErr_spec h
  exact rejectsWith_of_run h

theorem json_panic (n : Nat) (h : (deserializeJson env fl n t inp).isPanic = true) :
    Panics (fun n => deserializeJson env fl n t inp) :=
  panics_of_run (Out.isPanic_spec h)

/-- A value returned at some fuel is the value. -/
theorem Decodes.run {v : Val} (h : Decodes (fun n => deserializeJson env fl n t inp) v) {n w s}
    (hn : deserializeJson env fl n t inp = .ok w s) : w = v :=
  Decodes.unique (decodes_of_run hn) h

/-! ## Every successful run of a struct reader -/

theorem M.bind_inv {ε σ α β : Type} {x : M ε σ α} {f : α → M ε σ β} {s s'' b} (h : (x >>= f) s = .ok b s'') :
    ∃ a s', x s = .ok a s' ∧ f a s' = .ok b s'' := by
  rw [M.bind_def] at h
  cases e : x s with
  | ok a s' => rw [e] at h; exact ⟨a, s', rfl, h⟩
  | _ => rw [e] at h; cases h

theorem whileIs_inv {α : Type} {I : α → Prop} {c : Tok} {body : α → PM α} (hb : ∀ a s b s', I a → body a s = .ok b s' → I b)
    (n : Nat) (a : α) (s : PSt) (b : α) (s' : PSt) (ha : I a) (h : whileIs c body n a s = .ok b s') : I b := by
  induction n generalizing a s with
  | zero => cases h
  | succ n ih =>
    have : whileIs c body (n + 1) a s = (if s.tok = c then (body a >>= whileIs c body n) s else .ok a s) := by
      show (if s.tok = c then (body a >>= whileIs c body n) else Pure.pure a : PM α) s = _
      split <;> rfl
    rw [this] at h
    split at h
    · obtain ⟨a1, s1, h1, h2⟩ := M.bind_inv h
      exact ih a1 s1 (hb _ _ _ _ ha h1) h2
    · injection h with h _; exact h ▸ ha

theorem unwrapFields_ok (cd : Bool) (fs : List Field) (acc : List (Option Val)) (s : PSt) (vs : List Val) (s' : PSt)
    (hl : acc.length = fs.length) (h : unwrapFields cd fs acc s = .ok vs s') :
    vs.length = fs.length ∧ ∀ (i : Nat) f, fs[i]? = some f → f.skip = true → vs[i]? = some (f.dfltAttr.getD f.tyDefault) := by
  induction fs generalizing acc s vs with
  | nil =>
    cases acc with
    | nil => injection h with h _; subst h; simp
    | cons => simp at hl
  | cons f fs ih =>
    cases acc with
    | nil => simp at hl
    | cons o os =>
      simp only [unwrapFields] at h
      have rest : ∀ (a : Val) (s1 : PSt), (f.skip = true → a = f.dfltAttr.getD f.tyDefault) →
          (do let as ← unwrapFields cd fs os; Pure.pure (a :: as) : PM (List Val)) s1 = .ok vs s' →
          vs.length = (f :: fs).length ∧ ∀ (i : Nat) g, (f :: fs)[i]? = some g → g.skip = true →
            vs[i]? = some (g.dfltAttr.getD g.tyDefault) := by
        intro a s1 ha h2
        obtain ⟨as, s2, h3, h4⟩ := M.bind_inv h2
        injection h4 with h4 _
        subst h4
        obtain ⟨i1, i2⟩ := ih os s1 as (by simpa using hl) (by rw [h3]; congr 1)
        refine ⟨by simp [i1], ?_⟩
        intro i g hg hs
        cases i with
        | zero => simp at hg; subst hg; simp [ha hs]
        | succ i => simp at hg ⊢; exact i2 i g hg hs
      by_cases hs : f.skip = true
      · simp only [hs, if_true, Bool.true_or] at h
        exact rest _ s (fun _ => rfl) h
      · simp only [hs, Bool.false_or] at h
        cases o with
        | some v => exact rest v s (fun h => absurd h hs) h
        | none =>
          simp only [Bool.false_eq_true, if_false] at h
          split at h
          · exact rest _ s (fun _ => rfl) h
          · obtain ⟨a, s1, h1, h2⟩ := M.bind_inv h
            cases h1

theorem jMember_length {nx : PM Unit} {n : Nat} {de : Ty → PM Val} {fs : List Field} {acc acc' : List (Option Val)}
    {s s' : PSt} (h : jMember nx n de fs acc s = .ok acc' s') : acc'.length = acc.length := by
  obtain ⟨_, s1, h1, h⟩ := M.bind_inv h
  obtain ⟨a, s2, h2, h⟩ := M.bind_inv h
  obtain ⟨_, s3, h3, h⟩ := M.bind_inv h
  injection h with h _
  subst h
  have key : ∀ k s s', jMemberValue nx n de fs acc k s = .ok a s' → a.length = acc.length := by
    intro k s s' h2
    unfold jMemberValue at h2
    split at h2
    · injection h2 with h2 _; rw [h2]
    cases hf : findField fs k with
    | some i =>
      rw [hf] at h2
      obtain ⟨_, _, _, h2⟩ := M.bind_inv h2
      obtain ⟨_, _, _, h2⟩ := M.bind_inv h2
      injection h2 with h2 _; rw [← h2]; simp
    | none =>
      rw [hf] at h2
      obtain ⟨_, _, _, h2⟩ := M.bind_inv h2
      obtain ⟨_, _, _, h2⟩ := M.bind_inv h2
      injection h2 with h2 _; rw [← h2]
  exact key _ _ _ h2

theorem deJsonNamed_skip {nx : PM Unit} {n : Nat} {de : Ty → PM Val} {cd : Bool} {fs : List Field} {s s' : PSt} {vs : List Val}
    (h : deJsonNamed nx n de cd fs s = .ok vs s') :
    vs.length = fs.length ∧ ∀ (i : Nat) f, fs[i]? = some f → f.skip = true → vs[i]? = some (f.dfltAttr.getD f.tyDefault) := by
  obtain ⟨_, s1, h1, h⟩ := M.bind_inv h
  obtain ⟨acc, s2, h2, h⟩ := M.bind_inv h
  obtain ⟨_, s3, h3, h⟩ := M.bind_inv h
  refine unwrapFields_ok cd fs acc s3 vs s' ?_ h
  exact whileIs_inv (I := fun a => a.length = fs.length) (fun a s b s' ha hb => (jMember_length hb).trans ha)
    _ _ _ _ _ (by simp) h2

end NS
