import Verif.Lemmas.WrittenSize
import Verif.Props.OneLine
/-! # C103: what is written is no larger than what there is to write -/
namespace NS
variable {env : Env} {fl : FloatOps} {chk : Bool}

/-- **C103** (binary): at most 16 bytes per part of the value, for every program and every type. -/
theorem C103_bin_size_linear (t : Ty) (v : Val) : (serializeBin env t v).length ≤ 16 * v.parts := serBin_size v t

/-- **C103** (JSON): the length of a written text is linear in the number of parts of the value, with a factor that
depends only on the longest name in the program and the longest float text.  In particular nesting costs nothing
extra: there is no indentation. -/
theorem C103_json_size_linear {K F : Nat} (hN : NamesWithin env K) (hF : FloatsWithin fl F) {t : Ty} {v : Val}
    {txt : List Char} (h : serializeJson env fl chk t v = some txt) : txt.length ≤ (2 * K + F + 23) * v.parts := by
  unfold serializeJson at h
  split at h
  · cases h
  · injection h with h
    subst h
    have := serJson_size hF hN v t
    unfold FitsIn at this
    omega

/-- **C103** (RON). -/
theorem C103_ron_size_linear {K F : Nat} (hN : NamesWithin env K) (hF : FloatsWithin fl F) {t : Ty} {v : Val}
    {txt : List Char} (h : serializeRon env fl chk t v = some txt) : txt.length ≤ (2 * K + F + 23) * v.parts := by
  unfold serializeRon at h
  split at h
  · cases h
  · injection h with h
    subst h
    have := serRon_size hF hN v t
    unfold FitsIn at this
    omega

/-- **C103**: the parts themselves must count: `n` vectors inside one another are `n` parts and `2 n` characters. -/
theorem C103_json_nesting (n : Nat) :
    serializeJson env fl false (Nat.rec Ty.unit (fun _ t => .vec t) (n + 1)) (Nat.rec (Val.seq []) (fun _ v => .seq [v]) n) =
      some (List.replicate (n + 1) '[' ++ List.replicate (n + 1) ']') := by
  have key : ∀ n : Nat, serJson env fl (Nat.rec Ty.unit (fun _ t => .vec t) (n + 1)) (Nat.rec (Val.seq []) (fun _ v => .seq [v]) n) =
      List.replicate (n + 1) '[' ++ List.replicate (n + 1) ']' := by
    intro n
    induction n with
    | zero => simp [serJson, serJsonAll, joinSep]
    | succ n ih =>
      show '[' :: (joinSep [','] (serJsonAll env fl (Nat.rec Ty.unit (fun _ t => .vec t) (n + 1)) [Nat.rec (Val.seq []) (fun _ v => .seq [v]) n]) ++ [']']) = _
      simp only [serJsonAll, joinSep]
      rw [ih, List.replicate_succ (n := n + 1), List.replicate_succ' (n := n + 1) (a := ']')]
      simp only [List.cons_append, List.append_assoc]
  unfold serializeJson
  rw [if_neg (by simp)]
  rw [key n]

/-! ## Examples -/

/-- Floats written in three characters. -/
def shortFloat : FloatOps := { toyFloat with show64 := fun _ => ['0', '.', '5'], show32 := fun _ => ['0', '.', '5'] }

theorem shortFloat_within : FloatsWithin shortFloat 3 := ⟨fun _ => by simp [shortFloat], fun _ => by simp [shortFloat]⟩

theorem exJEnv_names : NamesWithin exJEnv 12 := by
  have : (exJEnv.defs.all fun d => d.names.all fun nm => decide (nm.length ≤ 12)) = true := by
    rw [exJEnv_defs]; decide +kernel
  intro d hd nm hm
  have h := List.all_eq_true.1 (List.all_eq_true.1 this d hd) nm hm
  simpa using h

example : exConfVal.parts = 15 := by decide +kernel

example : ∃ txt, serializeJson exJEnv shortFloat true (.named 3) exConfVal = some txt ∧ txt.length ≤ 50 * 15 := by
  obtain ⟨txt, h⟩ : ∃ txt, serializeJson exJEnv shortFloat true (.named 3) exConfVal = some txt := Option.isSome_iff_exists.1 (by decide +kernel)
  exact ⟨txt, h, C103_json_size_linear exJEnv_names shortFloat_within h⟩

example : ∃ txt, serializeRon exJEnv shortFloat true (.named 3) exConfVal = some txt ∧ txt.length ≤ 50 * 15 := by
  obtain ⟨txt, h⟩ : ∃ txt, serializeRon exJEnv shortFloat true (.named 3) exConfVal = some txt := Option.isSome_iff_exists.1 (by decide +kernel)
  exact ⟨txt, h, C103_ron_size_linear exJEnv_names shortFloat_within h⟩

example : (serializeBin exJEnv (.named 3) exConfVal).length ≤ 16 * 15 := C103_bin_size_linear (.named 3) exConfVal

end NS
