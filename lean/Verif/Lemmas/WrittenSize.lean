import Verif.Spec.WrittenSize
import Verif.Lemmas.Monad
import Verif.Lemmas.Bytes
import Verif.Model.Bin
import Verif.Model.Ron
/-! # The size of what is written -/
namespace NS
variable {env : Env} {fl : FloatOps}

theorem parts_pos (v : Val) : 1 ≤ v.parts := by cases v <;> simp [Val.parts] <;> omega

/-! ## Binary -/

theorem utf8_at_most (s : List Char) : (utf8 s).length ≤ 4 * s.length := by
  induction s with
  | nil => simp [utf8]
  | cons c s ih =>
    have : (utf8Char c).length ≤ 4 := by
      unfold utf8Char
      simp only
      split
      · simp
      · split
        · simp
        · split <;> simp
    simp only [utf8, List.flatMap_cons, List.length_append, List.length_cons] at ih ⊢
    omega

theorem serBinAll_size {t : Ty} {vs : List Val} (h : ∀ v ∈ vs, (serBin env t v).length ≤ 16 * v.parts) :
    (serBinAll env t vs).length ≤ 16 * partsAll vs := by
  induction vs with
  | nil => simp [serBinAll]
  | cons v vs ih =>
    have h1 := h v (by simp)
    have h2 := ih fun v hv => h v (by simp [hv])
    simp only [serBinAll, partsAll, List.length_append]
    omega

theorem serBinEntries_size {k t : Ty} {vs : List Val}
    (h : ∀ a b, Val.entry a b ∈ vs → (serBin env k a).length ≤ 16 * a.parts ∧ (serBin env t b).length ≤ 16 * b.parts) :
    (serBinEntries env k t vs).length ≤ 16 * partsAll vs := by
  induction vs with
  | nil => simp [serBinEntries]
  | cons v vs ih =>
    have h2 := ih fun a b hm => h a b (by simp [hm])
    cases v
    case entry a b =>
      have h1 := h a b (by simp)
      simp only [serBinEntries, partsAll, Val.parts, List.length_append]
      omega
    all_goals
      simp only [serBinEntries, partsAll]
      omega

theorem serBinTys_size {ts : List Ty} {vs : List Val} (h : ∀ v ∈ vs, ∀ t, (serBin env t v).length ≤ 16 * v.parts) :
    (serBinTys env ts vs).length ≤ 16 * partsAll vs := by
  induction ts generalizing vs with
  | nil => simp [serBinTys]
  | cons t ts ih =>
    cases vs with
    | nil => simp [serBinTys]
    | cons v vs =>
      have h1 := h v (by simp) t
      have h2 := ih (vs := vs) fun v hv => h v (by simp [hv])
      simp only [serBinTys, partsAll, List.length_append]
      omega

theorem serBinFields_size {b : Bool} {fs : List Field} {vs : List Val} (h : ∀ v ∈ vs, ∀ t, (serBin env t v).length ≤ 16 * v.parts) :
    (serBinFields env b fs vs).length ≤ 16 * partsAll vs := by
  induction fs generalizing vs with
  | nil => simp [serBinFields]
  | cons f fs ih =>
    cases vs with
    | nil => simp [serBinFields]
    | cons v vs =>
      have h1 := h v (by simp) f.ty
      have h2 := ih (vs := vs) fun v hv => h v (by simp [hv])
      simp only [serBinFields, partsAll, List.length_append]
      split
      · simp only [List.length_nil]; omega
      · omega

theorem serBin_size (v : Val) : ∀ t, (serBin env t v).length ≤ 16 * v.parts := by
  induction v using Val.sizeInd with
  | _ v ih =>
  intro t
  have hu : ∀ n, (serUsize n).length = 8 := fun n => by simp [serUsize]
  have hd : ∀ s n, (serBinDur s n).length = 12 := fun s n => by simp [serBinDur]
  have seq : ∀ {vs : List Val}, v = .seq vs → ∀ w ∈ vs, ∀ t, (serBin env t w).length ≤ 16 * w.parts := by
    intro vs e w hw t
    have := Val.sizeOf_mem hw
    exact ih w (by subst e; simp; omega) t
  have ent : ∀ {vs : List Val}, v = .seq vs → ∀ a b, Val.entry a b ∈ vs → ∀ k t,
      (serBin env k a).length ≤ 16 * a.parts ∧ (serBin env t b).length ≤ 16 * b.parts := by
    intro vs e a b hm k t
    have := Val.sizeOf_mem hm
    simp only [Val.entry.sizeOf_spec] at this
    exact ⟨ih a (by subst e; simp; omega) k, ih b (by subst e; simp; omega) t⟩
  have str : ∀ {vs : List Val}, v = .struct vs → ∀ w ∈ vs, ∀ t, (serBin env t w).length ≤ 16 * w.parts := by
    intro vs e w hw t
    have := Val.sizeOf_mem hw
    exact ih w (by subst e; simp; omega) t
  have var : ∀ {j : Nat} {vs : List Val}, v = .variant j vs → ∀ w ∈ vs, ∀ t, (serBin env t w).length ≤ 16 * w.parts := by
    intro j vs e w hw t
    have := Val.sizeOf_mem hw
    exact ih w (by subst e; simp; omega) t
  unfold serBin
  split <;> simp only [Val.parts, List.length_append, List.length_cons, List.length_nil, hu, hd, leBytes_length]
  · omega
  · omega
  · rename_i k _ i
    have : k.bytes ≤ 16 := by cases k <;> decide
    omega
  · omega
  · omega
  · rename_i s
    have := utf8_at_most s
    omega
  · omega
  · split <;> simp only [List.length_cons, List.length_nil, hd] <;> omega
  · omega
  · rename_i w; have := ih w (by simp) ‹Ty›; omega
  · have := serBinAll_size (env := env) fun w hw => seq rfl w hw ‹Ty›; omega
  · have := serBinAll_size (env := env) fun w hw => seq rfl w hw ‹Ty›; omega
  · have := serBinAll_size (env := env) fun w hw => seq rfl w hw ‹Ty›; omega
  · have := serBinAll_size (env := env) fun w hw => seq rfl w hw ‹Ty›; omega
  · have := serBinAll_size (env := env) fun w hw => seq rfl w hw ‹Ty›; omega
  · rename_i a b _; have := serBinTys_size (env := env) (ts := [a, b]) (seq rfl); omega
  · rename_i a b c _; have := serBinTys_size (env := env) (ts := [a, b, c]) (seq rfl); omega
  · rename_i a b c d _; have := serBinTys_size (env := env) (ts := [a, b, c, d]) (seq rfl); omega
  · rename_i a b _; have := serBinEntries_size (env := env) fun x y hm => ent rfl x y hm a b; omega
  · rename_i a b _; have := serBinEntries_size (env := env) fun x y hm => ent rfl x y hm a b; omega
  · rename_i w; have := ih w (by simp) ‹Ty›; omega
  · split
    · rename_i fs _ _ _; have := serBinFields_size (env := env) (b := true) (fs := fs) (str rfl); omega
    · rename_i ts _ _; have := serBinTys_size (env := env) (ts := ts) (str rfl); omega
    · simp
  · split
    · split
      · simp only [leBytes_length]; omega
      · rename_i ts _; have := serBinTys_size (env := env) (ts := ts) (var rfl)
        simp only [List.length_append, leBytes_length]; omega
      · rename_i fs _; have := serBinFields_size (env := env) (b := false) (fs := fs) (var rfl)
        simp only [List.length_append, leBytes_length]; omega
      · simp
    · simp
  · split
    · rename_i w _ px _; have := ih w (by simp <;> omega) px.ty; omega
    · simp
  · simp

/-! ## Texts -/

/-- The length of texts with two more characters each. -/
def total (xs : List (List Char)) : Nat := (xs.map fun x => x.length + 2).sum

theorem total_cons (x : List Char) (xs) : total (x :: xs) = x.length + 2 + total xs := by simp [total]

theorem join_size {sep : List Char} (hs : sep.length ≤ 2) (xs : List (List Char)) : (joinSep sep xs).length ≤ total xs := by
  induction xs with
  | nil => simp [joinSep]
  | cons x xs ih =>
    cases xs with
    | nil => simp only [joinSep, total_cons]; omega
    | cons y ys => simp only [joinSep, total_cons, List.length_append] at ih ⊢; omega

theorem commas_size (xs : List (List Char)) : (commaEach xs).length ≤ total xs := by
  induction xs with
  | nil => simp [commaEach]
  | cons x xs ih =>
    rw [show commaEach (x :: xs) = (x ++ [',']) ++ commaEach xs from rfl, total_cons]
    simp only [List.length_append, List.length_cons, List.length_nil]
    omega

theorem dur_size (s n : Nat) : (durText s n).length ≤ 18 + (showNat s).length + (showNat n).length := by
  unfold durText
  simp only [List.length_append, List.length_cons, List.length_nil]
  split <;> simp only [List.length_append, List.length_cons, List.length_nil] <;> omega

theorem flatMap_size {f : Char → List Char} {k : Nat} (hf : ∀ c, (f c).length ≤ k) (s : List Char) : (s.flatMap f).length ≤ k * s.length := by
  induction s with
  | nil => simp
  | cons c s ih =>
    have := hf c
    simp only [List.flatMap_cons, List.length_append, List.length_cons, Nat.mul_add, Nat.mul_one]
    omega

theorem jsonEsc_size (c : Char) : (jsonEsc c).length ≤ 6 := by
  unfold jsonEsc
  repeat' split
  all_goals simp [hex4]

theorem ronEsc_size (c : Char) : (ronEsc c).length ≤ 6 := by
  unfold ronEsc
  repeat' split
  all_goals simp

theorem key_size {K : Nat} {f : Field} (h : ∀ nm ∈ f.names, nm.length ≤ K) : f.key.length ≤ K := by
  unfold Field.key
  cases hr : f.rename with
  | none => exact h _ (by simp [Field.names])
  | some r => exact h _ (by simp [Field.names, hr])

theorem member_size (nm s : List Char) : (jsonMember nm s).length = nm.length + 3 + s.length := by
  simp only [jsonMember, jsonLabel, List.length_append, List.length_cons, List.length_nil]; omega

section json
variable {K C : Nat}

/-- A text with room for a name and some punctuation. -/
abbrev FitsIn (K C : Nat) (x : List Char) (c : Nat) : Prop := x.length + (K + 5) ≤ C * c

theorem serJsonAll_size {t : Ty} {vs : List Val} (h : ∀ v ∈ vs, FitsIn K C (serJson env fl t v) v.parts) :
    total (serJsonAll env fl t vs) ≤ C * partsAll vs := by
  induction vs with
  | nil => simp [serJsonAll, total]
  | cons v vs ih =>
    have h1 := h v (by simp)
    have h2 := ih fun v hv => h v (by simp [hv])
    simp only [serJsonAll, partsAll, total_cons, Nat.mul_add]
    omega

theorem serJsonEntries_size {k t : Ty} {vs : List Val}
    (h : ∀ a b, Val.entry a b ∈ vs → FitsIn K C (serJson env fl k a) a.parts ∧ FitsIn K C (serJson env fl t b) b.parts) :
    total (serJsonEntries env fl k t vs) ≤ C * partsAll vs := by
  induction vs with
  | nil => simp [serJsonEntries, total]
  | cons v vs ih =>
    have h2 := ih fun a b hm => h a b (by simp [hm])
    cases v
    case entry a b =>
      have h1 := h a b (by simp)
      simp only [serJsonEntries, partsAll, Val.parts, total_cons, List.length_append, List.length_cons, Nat.mul_add]
      omega
    all_goals
      simp only [serJsonEntries, partsAll, Nat.mul_add]
      omega

theorem serJsonTys_size {ts : List Ty} {vs : List Val} (h : ∀ v ∈ vs, ∀ t, FitsIn K C (serJson env fl t v) v.parts) :
    total (serJsonTys env fl ts vs) ≤ C * partsAll vs := by
  induction ts generalizing vs with
  | nil => simp [serJsonTys, total]
  | cons t ts ih =>
    cases vs with
    | nil => simp [serJsonTys, total]
    | cons v vs =>
      have h1 := h v (by simp) t
      have h2 := ih (vs := vs) fun v hv => h v (by simp [hv])
      simp only [serJsonTys, partsAll, total_cons, Nat.mul_add]
      omega

theorem serJsonFields_size {nul : Bool} {fs : List Field} {vs : List Val} (hC : K + 12 ≤ C) (hf : ∀ f ∈ fs, ∀ nm ∈ f.names, nm.length ≤ K)
    (h : ∀ v ∈ vs, ∀ t, FitsIn K C (serJson env fl t v) v.parts) : total (serJsonFields env fl nul fs vs) ≤ C * partsAll vs := by
  induction fs generalizing vs with
  | nil => simp [serJsonFields, total]
  | cons f fs ih =>
    cases vs with
    | nil => simp [serJsonFields, total]
    | cons v vs =>
      have h2 := ih (vs := vs) (fun f hm => hf f (by simp [hm])) (fun v hv => h v (by simp [hv]))
      have hk := key_size (hf f (by simp))
      have h1 := h v (by simp) f.ty
      have h3 := Nat.mul_le_mul_left C (parts_pos v)
      rw [serJsonFields]
      simp only [partsAll, Nat.mul_add]
      repeat' split
      all_goals
        try simp only [total_cons, member_size, List.length_cons, List.length_nil]
        omega

theorem serJsonVarFields_size {fs : List Field} {vs : List Val} (hf : ∀ f ∈ fs, ∀ nm ∈ f.names, nm.length ≤ K)
    (h : ∀ v ∈ vs, ∀ t, FitsIn K C (serJson env fl t v) v.parts) : (serJsonVarFields env fl fs vs).length ≤ C * partsAll vs := by
  induction fs generalizing vs with
  | nil => simp [serJsonVarFields]
  | cons f fs ih =>
    cases vs with
    | nil => simp [serJsonVarFields]
    | cons v vs =>
      have h2 := ih (vs := vs) (fun f hm => hf f (by simp [hm])) (fun v hv => h v (by simp [hv]))
      have hk := hf f (by simp) f.name (by simp [Field.names])
      have h1 := h v (by simp) f.ty
      rw [serJsonVarFields]
      simp only [partsAll, Nat.mul_add, List.length_append]
      repeat' split
      all_goals
        simp only [List.length_append, member_size, List.length_cons, List.length_nil]
        omega

theorem serJson_size {F : Nat} (hF : FloatsWithin fl F) (hN : NamesWithin env K) (v : Val) :
    ∀ t, FitsIn K (2 * K + F + 23) (serJson env fl t v) v.parts := by
  induction v using Val.sizeInd with
  | _ v ih =>
  intro t
  generalize hC : 2 * K + F + 23 = C at ih ⊢
  have seq : ∀ {vs : List Val}, v = .seq vs → ∀ w ∈ vs, ∀ t, FitsIn K C (serJson env fl t w) w.parts := by
    intro vs e w hw t
    have := Val.sizeOf_mem hw
    exact ih w (by subst e; simp; omega) t
  have ent : ∀ {vs : List Val}, v = .seq vs → ∀ a b, Val.entry a b ∈ vs → ∀ k t,
      FitsIn K C (serJson env fl k a) a.parts ∧ FitsIn K C (serJson env fl t b) b.parts := by
    intro vs e a b hm k t
    have := Val.sizeOf_mem hm
    simp only [Val.entry.sizeOf_spec] at this
    exact ⟨ih a (by subst e; simp; omega) k, ih b (by subst e; simp; omega) t⟩
  have str : ∀ {vs : List Val}, v = .struct vs → ∀ w ∈ vs, ∀ t, FitsIn K C (serJson env fl t w) w.parts := by
    intro vs e w hw t
    have := Val.sizeOf_mem hw
    exact ih w (by subst e; simp; omega) t
  have var : ∀ {j : Nat} {vs : List Val}, v = .variant j vs → ∀ w ∈ vs, ∀ t, FitsIn K C (serJson env fl t w) w.parts := by
    intro j vs e w hw t
    have := Val.sizeOf_mem hw
    exact ih w (by subst e; simp; omega) t
  have blk : ∀ {xs : List (List Char)} {o c : Char} {n : Nat}, total xs ≤ C * n →
      FitsIn K C (o :: (joinSep [','] xs ++ [c])) (1 + n) := by
    intro xs o c n h
    have := join_size (sep := [',']) (by simp) xs
    unfold FitsIn
    simp only [List.length_append, List.length_cons, List.length_nil, Nat.mul_add] at this ⊢
    omega
  have lit : ∀ {x : List Char} {n : Nat}, x.length ≤ 5 → FitsIn K C x (1 + n) := by
    intro x n h
    unfold FitsIn
    simp only [Nat.mul_add]
    omega
  have numb : ∀ {x : List Char} {n : Nat}, x.length ≤ 18 + n → FitsIn K C x (1 + n) := by
    intro x n h
    have : n ≤ C * n := Nat.le_mul_of_pos_left _ (by omega)
    unfold FitsIn
    simp only [Nat.mul_add]
    omega
  have one : ∀ {w : Val} {x : List Char}, FitsIn K C x w.parts → FitsIn K C x (1 + w.parts) := by
    intro w x h
    unfold FitsIn at h ⊢
    simp only [Nat.mul_add]
    omega
  have flt : ∀ {x : List Char}, x.length ≤ F → FitsIn K C x 1 := by
    intro x h
    unfold FitsIn
    omega
  unfold serJson
  split <;> try simp only [Val.parts]
  · exact lit (n := 0) (by decide)
  · split <;> exact lit (n := 0) (by decide)
  · exact numb (by omega)
  · exact flt (hF.2 _)
  · exact flt (hF.1 _)
  · rename_i s
    have h1 := flatMap_size jsonEsc_size s
    have h2 : 6 * s.length ≤ C * s.length := Nat.mul_le_mul_right _ (by omega)
    unfold FitsIn jsonStr
    simp only [List.length_cons, List.length_append, List.length_nil, Nat.mul_add] at h1 ⊢
    omega
  · rename_i s n
    rw [Nat.add_assoc]
    exact numb (by have := dur_size s n; omega)
  · rename_i s n
    rw [Nat.add_assoc]
    split
    · exact numb (by have := dur_size s.toNat n; omega)
    · exact lit (by decide)
  · exact lit (n := 0) (by decide)
  · exact one (ih _ (by simp <;> omega) _)
  · exact blk (serJsonAll_size fun w hw => seq rfl w hw _)
  · exact blk (serJsonAll_size fun w hw => seq rfl w hw _)
  · exact blk (serJsonAll_size fun w hw => seq rfl w hw _)
  · exact blk (serJsonAll_size fun w hw => seq rfl w hw _)
  · exact blk (serJsonAll_size fun w hw => seq rfl w hw _)
  · exact blk (serJsonTys_size (seq rfl))
  · exact blk (serJsonTys_size (seq rfl))
  · exact blk (serJsonTys_size (seq rfl))
  · exact blk (serJsonEntries_size fun a b hm => ent rfl a b hm _ _)
  · exact blk (serJsonEntries_size fun a b hm => ent rfl a b hm _ _)
  · exact one (ih _ (by simp <;> omega) _)
  · split
    · rename_i fs _ nul hd
      exact blk (serJsonFields_size (by omega)
        (fun f hf nm hm => hN _ (List.mem_of_getElem? hd) nm (List.mem_flatMap.2 ⟨f, hf, hm⟩)) (str rfl))
    · rename_i ts tr hd
      have h1 := serJsonTys_size (ts := ts) (str rfl)
      split
      · exact lit (by decide)
      · split
        · have := join_size (sep := []) (by simp) (serJsonTys env fl ts ‹List Val›)
          unfold FitsIn
          simp only [Nat.mul_add]
          omega
        · have := join_size (sep := [',', ' ']) (by simp) (serJsonTys env fl ts ‹List Val›)
          unfold FitsIn
          simp only [List.length_append, List.length_cons, List.length_nil, Nat.mul_add] at this ⊢
          omega
    · exact lit (by decide)
  · split
    · rename_i vars hd
      have hv : ∀ {j : Nat} {u : Variant}, vars[j]? = some u → ∀ nm ∈ u.names, nm.length ≤ K :=
        fun hj nm hm => hN _ (List.mem_of_getElem? hd) nm (List.mem_flatMap.2 ⟨_, List.mem_of_getElem? hj, hm⟩)
      have hk : ∀ {nm : List Char} {rn : Option (List Char)} {sh : Shape}, (∀ x ∈ (Variant.mk nm rn sh).names, x.length ≤ K) →
          (rn.getD nm).length ≤ K := by
        intro nm rn sh h
        cases rn with
        | none => exact h _ (by simp [Variant.names])
        | some r => exact h _ (by simp [Variant.names])
      split
      · rename_i hj
        have := hk (hv hj)
        unfold FitsIn
        simp only [jsonLabel, List.length_append, List.length_cons, List.length_nil, Nat.mul_add]
        omega
      · rename_i ts hj
        have h1 := hk (hv hj)
        have h2 := serJsonTys_size (ts := ts) (var rfl)
        have h3 := join_size (sep := [',']) (by simp) (serJsonTys env fl ts ‹List Val›)
        unfold FitsIn
        simp only [member_size, List.length_append, List.length_cons, List.length_nil, Nat.mul_add]
        omega
      · rename_i nm rn fs hj
        have h1 := hk (hv hj)
        have h2 := serJsonVarFields_size (fs := fs) (fun f hf nm hm => hv hj nm (by
          simp only [Variant.names, List.cons_append, List.mem_cons, List.mem_append]
          exact .inr (.inr (List.mem_flatMap.2 ⟨f, hf, hm⟩)))) (var rfl)
        unfold FitsIn
        simp only [member_size, List.length_append, List.length_cons, List.length_nil, Nat.mul_add]
        omega
      · exact lit (by decide)
    · exact lit (by decide)
  · split
    · exact one (ih _ (by simp <;> omega) _)
    · exact lit (by decide)
  · have := Nat.mul_le_mul_left C (parts_pos v)
    unfold FitsIn
    simp only [List.length_nil]
    omega

end json

section ron
variable {K C : Nat}

theorem serRonAll_size {t : Ty} {vs : List Val} (h : ∀ v ∈ vs, FitsIn K C (serRon env fl t v) v.parts) :
    total (serRonAll env fl t vs) ≤ C * partsAll vs := by
  induction vs with
  | nil => simp [serRonAll, total]
  | cons v vs ih =>
    have h1 := h v (by simp)
    have h2 := ih fun v hv => h v (by simp [hv])
    simp only [serRonAll, partsAll, total_cons, Nat.mul_add]
    omega

theorem serRonEntries_size {k t : Ty} {vs : List Val}
    (h : ∀ a b, Val.entry a b ∈ vs → FitsIn K C (serRon env fl k a) a.parts ∧ FitsIn K C (serRon env fl t b) b.parts) :
    total (serRonEntries env fl k t vs) ≤ C * partsAll vs := by
  induction vs with
  | nil => simp [serRonEntries, total]
  | cons v vs ih =>
    have h2 := ih fun a b hm => h a b (by simp [hm])
    cases v
    case entry a b =>
      have h1 := h a b (by simp)
      simp only [serRonEntries, partsAll, Val.parts, total_cons, List.length_append, List.length_cons, Nat.mul_add]
      omega
    all_goals
      simp only [serRonEntries, partsAll, Nat.mul_add]
      omega

theorem serRonTys_size {ts : List Ty} {vs : List Val} (h : ∀ v ∈ vs, ∀ t, FitsIn K C (serRon env fl t v) v.parts) :
    total (serRonTys env fl ts vs) ≤ C * partsAll vs := by
  induction ts generalizing vs with
  | nil => simp [serRonTys, total]
  | cons t ts ih =>
    cases vs with
    | nil => simp [serRonTys, total]
    | cons v vs =>
      have h1 := h v (by simp) t
      have h2 := ih (vs := vs) fun v hv => h v (by simp [hv])
      simp only [serRonTys, partsAll, total_cons, Nat.mul_add]
      omega

theorem serRonFields_size {at' : Bool} {fs : List Field} {vs : List Val} (hf : ∀ f ∈ fs, ∀ nm ∈ f.names, nm.length ≤ K)
    (h : ∀ v ∈ vs, ∀ t, FitsIn K C (serRon env fl t v) v.parts) : total (serRonFields env fl at' fs vs) ≤ C * partsAll vs := by
  induction fs generalizing vs with
  | nil => simp [serRonFields, total]
  | cons f fs ih =>
    cases vs with
    | nil => simp [serRonFields, total]
    | cons v vs =>
      have h2 := ih (vs := vs) (fun f hm => hf f (by simp [hm])) (fun v hv => h v (by simp [hv]))
      have hk := key_size (hf f (by simp))
      have hk' := hf f (by simp) f.name (by simp [Field.names])
      have h1 := h v (by simp) f.ty
      rw [serRonFields]
      simp only [partsAll, Nat.mul_add]
      repeat' split
      all_goals
        try simp only [total_cons, ronMember, List.length_append, List.length_cons]
        omega

theorem serRon_size {F : Nat} (hF : FloatsWithin fl F) (hN : NamesWithin env K) (v : Val) :
    ∀ t, FitsIn K (2 * K + F + 23) (serRon env fl t v) v.parts := by
  induction v using Val.sizeInd with
  | _ v ih =>
  intro t
  generalize hC : 2 * K + F + 23 = C at ih ⊢
  have seq : ∀ {vs : List Val}, v = .seq vs → ∀ w ∈ vs, ∀ t, FitsIn K C (serRon env fl t w) w.parts := by
    intro vs e w hw t
    have := Val.sizeOf_mem hw
    exact ih w (by subst e; simp; omega) t
  have ent : ∀ {vs : List Val}, v = .seq vs → ∀ a b, Val.entry a b ∈ vs → ∀ k t,
      FitsIn K C (serRon env fl k a) a.parts ∧ FitsIn K C (serRon env fl t b) b.parts := by
    intro vs e a b hm k t
    have := Val.sizeOf_mem hm
    simp only [Val.entry.sizeOf_spec] at this
    exact ⟨ih a (by subst e; simp; omega) k, ih b (by subst e; simp; omega) t⟩
  have str : ∀ {vs : List Val}, v = .struct vs → ∀ w ∈ vs, ∀ t, FitsIn K C (serRon env fl t w) w.parts := by
    intro vs e w hw t
    have := Val.sizeOf_mem hw
    exact ih w (by subst e; simp; omega) t
  have var : ∀ {j : Nat} {vs : List Val}, v = .variant j vs → ∀ w ∈ vs, ∀ t, FitsIn K C (serRon env fl t w) w.parts := by
    intro j vs e w hw t
    have := Val.sizeOf_mem hw
    exact ih w (by subst e; simp; omega) t
  have blk : ∀ {xs : List (List Char)} {o c : Char} {n : Nat}, total xs ≤ C * n →
      FitsIn K C (o :: (joinSep [','] xs ++ [c])) (1 + n) := by
    intro xs o c n h
    have := join_size (sep := [',']) (by simp) xs
    unfold FitsIn
    simp only [List.length_append, List.length_cons, List.length_nil, Nat.mul_add] at this ⊢
    omega
  have lit : ∀ {x : List Char} {n : Nat}, x.length ≤ 5 → FitsIn K C x (1 + n) := by
    intro x n h
    unfold FitsIn
    simp only [Nat.mul_add]
    omega
  have numb : ∀ {x : List Char} {n : Nat}, x.length ≤ 18 + n → FitsIn K C x (1 + n) := by
    intro x n h
    have : n ≤ C * n := Nat.le_mul_of_pos_left _ (by omega)
    unfold FitsIn
    simp only [Nat.mul_add]
    omega
  have one : ∀ {w : Val} {x : List Char}, FitsIn K C x w.parts → FitsIn K C x (1 + w.parts) := by
    intro w x h
    unfold FitsIn at h ⊢
    simp only [Nat.mul_add]
    omega
  have flt : ∀ {x : List Char}, x.length ≤ F → FitsIn K C x 1 := by
    intro x h
    unfold FitsIn
    omega
  have cms : ∀ {xs : List (List Char)} {o c : Char} {n : Nat}, total xs ≤ C * n →
      FitsIn K C (o :: (commaEach xs ++ [c])) (1 + n) := by
    intro xs o c n h
    have := commas_size xs
    unfold FitsIn
    simp only [List.length_append, List.length_cons, List.length_nil, Nat.mul_add] at this ⊢
    omega
  unfold serRon
  split <;> try simp only [Val.parts]
  · exact lit (n := 0) (by decide)
  · split <;> exact lit (n := 0) (by decide)
  · exact numb (by omega)
  · exact flt (hF.2 _)
  · exact flt (hF.1 _)
  · rename_i s
    have h1 := flatMap_size ronEsc_size s
    have h2 : 6 * s.length ≤ C * s.length := Nat.mul_le_mul_right _ (by omega)
    unfold FitsIn ronStr
    simp only [List.length_cons, List.length_append, List.length_nil, Nat.mul_add] at h1 ⊢
    omega
  · rename_i s n
    rw [Nat.add_assoc]
    exact numb (by have := dur_size s n; omega)
  · rename_i s n
    rw [Nat.add_assoc]
    split
    · exact numb (by have := dur_size s.toNat n; omega)
    · exact lit (by decide)
  · exact lit (n := 0) (by decide)
  · exact one (ih _ (by simp <;> omega) _)
  · exact cms (serRonAll_size fun w hw => seq rfl w hw _)
  · exact blk (serRonAll_size fun w hw => seq rfl w hw _)
  · exact blk (serRonAll_size fun w hw => seq rfl w hw _)
  · exact blk (serRonAll_size fun w hw => seq rfl w hw _)
  · exact blk (serRonAll_size fun w hw => seq rfl w hw _)
  · exact blk (serRonTys_size (seq rfl))
  · exact blk (serRonTys_size (seq rfl))
  · exact blk (serRonTys_size (seq rfl))
  · exact cms (serRonEntries_size fun a b hm => ent rfl a b hm _ _)
  · exact cms (serRonEntries_size fun a b hm => ent rfl a b hm _ _)
  · exact one (ih _ (by simp <;> omega) _)
  · split
    · rename_i fs _ nul hd
      exact cms (serRonFields_size
        (fun f hf nm hm => hN _ (List.mem_of_getElem? hd) nm (List.mem_flatMap.2 ⟨f, hf, hm⟩)) (str rfl))
    · rename_i ts tr hd
      have h1 := serRonTys_size (ts := ts) (str rfl)
      have := join_size (sep := [',', ' ']) (by simp) (serRonTys env fl ts ‹List Val›)
      unfold FitsIn
      simp only [List.length_append, List.length_cons, List.length_nil, Nat.mul_add] at this ⊢
      omega
    · exact lit (by decide)
  · split
    · rename_i vars hd
      have hv : ∀ {j : Nat} {u : Variant}, vars[j]? = some u → ∀ nm ∈ u.names, nm.length ≤ K :=
        fun hj nm hm => hN _ (List.mem_of_getElem? hd) nm (List.mem_flatMap.2 ⟨_, List.mem_of_getElem? hj, hm⟩)
      split
      · rename_i nm _ hj
        have := hv hj nm (by simp [Variant.names])
        unfold FitsIn
        simp only [Nat.mul_add]
        omega
      · rename_i nm _ ts hj
        have h1 := hv hj nm (by simp [Variant.names])
        have h2 := serRonTys_size (ts := ts) (var rfl)
        have h3 := join_size (sep := [',']) (by simp) (serRonTys env fl ts ‹List Val›)
        unfold FitsIn
        simp only [List.length_append, List.length_cons, List.length_nil, Nat.mul_add]
        omega
      · rename_i nm rn fs hj
        have h1 := hv hj nm (by simp [Variant.names])
        have h2 := serRonFields_size (at' := false) (fs := fs) (fun f hf nm hm => hv hj nm (by
          simp only [Variant.names, List.cons_append, List.mem_cons, List.mem_append]
          exact .inr (.inr (List.mem_flatMap.2 ⟨f, hf, hm⟩)))) (var rfl)
        have h3 := commas_size (serRonFields env fl false fs ‹List Val›)
        unfold FitsIn
        simp only [List.length_append, List.length_cons, List.length_nil, Nat.mul_add]
        omega
      · exact lit (by decide)
    · exact lit (by decide)
  · split
    · exact one (ih _ (by simp <;> omega) _)
    · exact lit (by decide)
  · have := Nat.mul_le_mul_left C (parts_pos v)
    unfold FitsIn
    simp only [List.length_nil]
    omega

end ron

end NS
