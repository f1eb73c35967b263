import Verif.Lemmas.JsonTrail
import Verif.Props.JsonHalts
/-! # Property C24: what follows a JSON value -/
namespace NS
variable {env : Env} {fl : FloatOps}

/-- **C24** (illegible content): if the value `J` is accepted on its own, and
in `txt` it is followed by something that is neither a JSON lexeme nor the end, then `txt` is rejected. -/
theorem C24_json_illegible_rejected (hfl : FloatLaws fl) (hw : ProgWf env) (hp : Productive env) {t : Ty}
    (ht : TyWf env t) {J : JTree} {txt rest alone : List Char} (hx : JDoc fl J.lexemes txt rest) (hr : Illegible fl rest)
    (ha : JText fl J alone) {v : Val} (hv : Decodes (fun n => deserializeJson env fl n t alone) v) :
    Rejects (fun n => deserializeJson env fl n t txt) :=
  illegible_outcome hfl hw hp ht hx hr ha hv

/-- **C24** (what is ignored): if the value is followed by one of `,` `:` `]` `}` and then by anything at all,
the outcome is that of the value on its own. -/
theorem C24_json_trailing_ignored (hw : ProgWf env) (hp : Productive env) {t : Ty} (ht : TyWf env t) {J : JTree}
    {txt rest alone : List Char} {p : Tok} (hq : p = .comma ∨ p = .colon ∨ p = .blockClose ∨ p = .curlyClose)
    (hx : JDoc fl (J.lexemes ++ [.punct p]) txt rest) (ha : JText fl J alone) :
    (∀ v, Decodes (fun n => deserializeJson env fl n t alone) v → Decodes (fun n => deserializeJson env fl n t txt) v) ∧
    (Rejects (fun n => deserializeJson env fl n t alone) → Rejects (fun n => deserializeJson env fl n t txt)) := by
  have hl : IsFollow (.punct p) := by rcases hq with rfl | rfl | rfl | rfl <;> simp [IsFollow]
  obtain ⟨h1, h2, _⟩ := trailing_outcome hw hp ht hl hx
  exact ⟨fun v hv => h1 v ((den_decodes hw hp ht ha).1 hv), fun h => h2 ((den_rejects hw hp ht ha).1 h)⟩

/-- C24: `1 ]?` is read as `1`. -/
example : Decodes (fun n => deserializeJson exJEnv toyFloat n (.int .u8) (chars " 1]?")) (.int 1) := by
  refine (C24_json_trailing_ignored (fl := toyFloat) (t := .int .u8) (J := .num (.nat 1)) (p := .blockClose) (rest := ['?'])
    (alone := chars " 1") exJEnv_wf exJEnv_productive (by simp [TyWf, IntKind.textual]) (by simp) ?_ ?_).1 _
    (json_ok 9 (.int 1) (by decide +kernel))
  · rw [JTree.lexemes]
    refine .cons (w := [' ']) (s := ['1']) (.space (by decide) .nil) ?_ (by intro c h; simp at h; subst h; decide)
      (.cons (w := []) .nil .blockClose trivial .nil)
    exact .num (NumLit.nat (sg := []) (ds := ['1']) (.inl rfl) (by simp) (by intro c hc; simp at hc; subst hc; decide) (by decide))
  · exact jtext_spaced [.num (.nat 1)] (by rw [JTree.lexemes]) (by decide)

/-- C24: a number after the value is accepted as well. -/
example : Decodes (fun n => deserializeJson exJEnv toyFloat n (.int .u8) (chars "1 2")) (.int 1) := json_ok 9 (.int 1) (by decide +kernel)

/-- No lexeme and no layout begins with this character. -/
def beginsNothing (c : Char) : Bool :=
  !(":,[]{}tfn\"+-0123456789 \n\r\t/".toList.contains c) && c != '\x00'

theorem jspell_head {l s} (h : JSpell fl l s) : ∃ c r, s = c :: r ∧ beginsNothing c = false := by
  have dig : ∀ c, ('0' ≤ c ∧ c ≤ '9') → beginsNothing c = false := by
    intro c hc
    have h1 : 48 ≤ c.toNat := hc.1
    have h2 : c.toNat ≤ 57 := hc.2
    have hm : c ∈ ['0', '1', '2', '3', '4', '5', '6', '7', '8', '9'] := by
      have : c = Char.ofNat c.toNat := (Char.ofNat_toNat c).symm
      rw [this]
      generalize c.toNat = k at h1 h2
      have : k = 48 ∨ k = 49 ∨ k = 50 ∨ k = 51 ∨ k = 52 ∨ k = 53 ∨ k = 54 ∨ k = 55 ∨ k = 56 ∨ k = 57 := by omega
      rcases this with rfl | rfl | rfl | rfl | rfl | rfl | rfl | rfl | rfl | rfl <;> decide
    simp only [List.mem_cons, List.not_mem_nil, or_false] at hm
    rcases hm with rfl | rfl | rfl | rfl | rfl | rfl | rfl | rfl | rfl | rfl <;> decide
  have digs : ∀ ds r, ds ≠ [] → Digits ds → ∃ c q, ds ++ r = c :: q ∧ beginsNothing c = false := by
    intro ds r h1 h2
    cases ds with
    | nil => exact absurd rfl h1
    | cons c ds => exact ⟨c, _, rfl, dig c (h2 c (by simp))⟩
  cases h with
  | num h =>
    cases h with
    | nat h1 h2 h3 _ =>
      rcases h1 with rfl | rfl
      · simpa using digs _ [] h2 h3
      · exact ⟨_, _, rfl, by decide⟩
    | neg _ _ _ => exact ⟨_, _, rfl, by decide⟩
    | @float sg ip fr ex x h1 h2 h3 _ _ _ _ =>
      rcases h1 with rfl | rfl | rfl
      · simp only [List.nil_append] at h2 ⊢
        rw [List.append_assoc]
        exact digs _ _ h2 h3
      · exact ⟨_, _, rfl, by decide⟩
      · exact ⟨_, _, rfl, by decide⟩
  | _ => exact ⟨_, _, rfl, by decide⟩

theorem illegible_of_head {c : Char} {r : List Char} (h : beginsNothing c = true) : Illegible fl (c :: r) := by
  have lay : ∀ {w q : List Char}, JLayout w → c :: r = w ++ q → w = [] := by
    intro w q hw e
    cases hw with
    | nil => rfl
    | space hc _ =>
      injection e with e _
      subst e
      rcases hc with rfl | rfl | rfl | rfl <;> simp [beginsNothing] at h
    | _ =>
      injection e with e _
      subst e
      simp [beginsNothing] at h
  constructor
  · rintro ⟨l, rest, hs⟩
    generalize e : c :: r = a at hs
    cases hs with
    | @cons l ls w s q _ h1 h2 h3 h4 =>
      rw [List.append_assoc] at e
      have := lay h1 e
      subst this
      obtain ⟨d, z, rfl, hd⟩ := jspell_head h2
      injection e with e _
      subst e
      rw [h] at hd; cases hd
  · rintro ⟨w, e, q, h1, h2, h3, h4⟩
    rw [List.append_assoc] at h1
    have := lay h2 h1
    subst this
    rcases h3 with rfl | ⟨b, rfl, _⟩
    · rcases h4 with rfl | h4
      · cases h1
      · simp only [List.nil_append] at h1
        rw [← h1] at h4
        simp at h4
        subst h4
        simp [beginsNothing] at h
    · injection h1 with h1 _
      subst h1
      simp [beginsNothing] at h

/-- C24: `1 ?` is rejected. -/
example : Rejects (fun n => deserializeJson exJEnv toyFloat n (.int .u8) (chars " 1?")) := by
  refine C24_json_illegible_rejected (fl := toyFloat) (t := .int .u8) (J := .num (.nat 1)) (rest := ['?'])
    (alone := chars " 1") toyFloat_laws exJEnv_wf exJEnv_productive (by simp [TyWf, IntKind.textual]) ?_
    (illegible_of_head (by decide)) ?_ (json_ok 9 (.int 1) (by decide +kernel))
  · rw [JTree.lexemes]
    refine .cons (w := [' ']) (s := ['1']) (.space (by decide) .nil) ?_ (by intro c h; simp at h; subst h; decide) .nil
    exact .num (NumLit.nat (sg := []) (ds := ['1']) (.inl rfl) (by simp) (by intro c hc; simp at hc; subst hc; decide) (by decide))
  · exact jtext_spaced [.num (.nat 1)] (by rw [JTree.lexemes]) (by decide)

end NS
