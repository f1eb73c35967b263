import Verif.Model.Bin
import Verif.Spec.Bin
import Verif.Lemmas.Bytes
import Verif.Lemmas.Monad
/-! Lemmas about the binary reader and writer. -/
namespace NS

theorem At.append {d o a b} (h : At d o (a ++ b)) : At d o a ∧ At d (o + a.length) b := by
  obtain ⟨pre, post, rfl, rfl⟩ := h
  exact ⟨⟨pre, b ++ post, by simp, rfl⟩, ⟨pre ++ a, post, by simp, by simp⟩⟩

theorem At.le {d o bs} (h : At d o bs) : o + bs.length ≤ d.length := by
  obtain ⟨pre, post, rfl, rfl⟩ := h
  simp

theorem At.take {d o bs} (h : At d o bs) : (d.drop o).take bs.length = bs := by
  obtain ⟨pre, post, rfl, rfl⟩ := h
  simp

variable {env : Env} {chk : Bool} {d : List Byte}

theorem addUsize_ok {a b o : Nat} (h : a + b < 2 ^ 64) :
    addUsize chk a b o = .ok (a + b) o := by simp [addUsize, h]

theorem readPrim_eq {len o : Nat} (h : o + len ≤ d.length) (hd : d.length ≤ isizeMax) :
    readPrim chk d len o = .ok ((d.drop o).take len) (o + len) := by
  unfold isizeMax at hd
  have h1 : ∀ s, addUsize chk o len s = .ok (o + len) s := fun s => addUsize_ok (by omega)
  simp only [readPrim, M.bind_def, M.get_apply, h1]
  rw [if_neg (by omega)]
  simp only [M.bind_def, h1, slice]
  rw [if_pos ⟨by omega, h⟩]
  simp

theorem readPrim_at {bs o} (h : At d o bs) (hd : d.length ≤ isizeMax) :
    readPrim chk d bs.length o = .ok bs (o + bs.length) := by
  rw [readPrim_eq h.le hd, h.take]

theorem readPrim_le {n x o} (h : At d o (leBytes n x)) (hd : d.length ≤ isizeMax) :
    readPrim chk d n o = .ok (leBytes n x) (o + n) := by
  have := readPrim_at (chk := chk) h hd
  simpa using this

theorem readUsize_at {x o} (h : At d o (serUsize x)) (hx : x < 2 ^ 64) (hd : d.length ≤ isizeMax) :
    readUsize chk d o = .ok x (o + 8) := by
  have hl := h.le
  have ht := h.take
  simp only [serUsize, leBytes_length] at hl ht
  unfold isizeMax at hd
  have h1 : ∀ s, addUsize chk o 8 s = .ok (o + 8) s := fun s => addUsize_ok (by omega)
  simp only [readUsize, M.bind_def, M.get_apply, h1]
  rw [if_pos ⟨by omega, hl⟩]
  simp only [M.bind_def, h1, M.set_apply, M.pure_apply]
  rw [show o + 8 - o = 8 by omega, ht, leVal_leBytes _ _ (by rw [pow256]; exact hx)]

theorem deBinStr_at {s : List Char} {o} (h : At d o (serUsize (utf8 s).length ++ utf8 s))
    (hd : d.length ≤ isizeMax) :
    deBinStr chk d o = .ok s (o + (8 + (utf8 s).length)) := by
  obtain ⟨h1, h2⟩ := h.append
  have hl := h2.le
  have ht := h2.take
  simp only [serUsize, leBytes_length] at hl ht
  have hd' := hd
  unfold isizeMax at hd'
  have ha : ∀ s', addUsize chk (o + 8) (utf8 s).length s' = .ok (o + 8 + (utf8 s).length) s' :=
    fun s' => addUsize_ok (by omega)
  simp only [deBinStr]
  rw [M.bind_ok (readUsize_at h1 (by omega) hd)]
  simp only [M.bind_def, M.get_apply, ha]
  rw [if_neg (by omega)]
  simp only [M.bind_def, ha, slice]
  rw [if_pos ⟨by omega, by omega⟩]
  rw [show o + 8 + (utf8 s).length - (o + 8) = (utf8 s).length by omega, ht]
  simp only [fromUtf8_utf8]
  simp [M.bind_def, ha, Nat.add_assoc]

theorem deBinDur_at {s n o : Nat} (h : At d o (serBinDur s n)) (hs : s ≤ u64Max)
    (hn : n < 1000000000) (hd : d.length ≤ isizeMax) :
    deBinDur chk d o = .ok (s, n) (o + 12) := by
  obtain ⟨h1, h2⟩ := h.append
  simp only [leBytes_length] at h2
  unfold u64Max at hs
  simp only [deBinDur]
  rw [M.bind_ok (readPrim_le h1 hd), M.bind_ok (readPrim_le h2 hd)]
  rw [leVal_leBytes 8 s (by rw [pow256]; omega), leVal_leBytes 4 n (by rw [pow256]; omega)]
  rw [if_neg (by omega)]
  simp [durNew, hn]

/-- A loop over items each of which is read back. -/
theorem repeatM_at {enc : Val → List Byte} {f : Nat → BinM Val}
    (vs : List Val)
    (ih : ∀ v ∈ vs, ∀ o, At d o (enc v) → Returns (fun n => f n o) (.ok v (o + (enc v).length)))
    (o : Nat) (h : At d o (vs.flatMap enc)) :
    Returns (fun n => repeatM (f n) vs.length o) (.ok vs (o + (vs.flatMap enc).length)) := by
  induction vs generalizing o with
  | nil => exact ⟨0, fun n _ => by simp [repeatM]⟩
  | cons v vs ihl =>
    rw [List.flatMap_cons] at h
    obtain ⟨h1, h2⟩ := At.append h
    obtain ⟨n1, h1⟩ := ih v (by simp) o h1
    obtain ⟨n2, h2⟩ := ihl (fun w hw => ih w (by simp [hw])) _ h2
    refine ⟨max n1 n2, fun n hn => ?_⟩
    have e1 := h1 n (by omega)
    have e2 := h2 n (by omega)
    simp only [List.length_cons, repeatM] at *
    rw [M.bind_ok e1, M.bind_ok e2]
    simp [Nat.add_assoc]

/-- The insertion loop is the reading loop followed by the insertions. -/
theorem insertLoop_eq (c : Coll) (x : BinM Val) (n : Nat) (acc : List Val) (o : Nat) :
    insertLoop env c x n acc o =
      (repeatM x n >>= fun vs => (pure (vs.foldl (collInsert env c) acc) : BinM _)) o := by
  induction n generalizing acc o with
  | zero => simp [insertLoop, repeatM, M.bind_def]
  | succ n ih =>
    simp only [insertLoop, repeatM, M.bind_def]
    cases hx : x o with
    | ok a o1 =>
      simp only [ih, M.bind_def]
      cases repeatM x n o1 <;> simp
    | _ => simp

theorem insertLoop_ok {c : Coll} {x : BinM Val} {n : Nat} {o o' : Nat} {vs : List Val}
    (h : repeatM x n o = .ok vs o') (acc : List Val) :
    insertLoop env c x n acc o = .ok (vs.foldl (collInsert env c) acc) o' := by
  rw [insertLoop_eq, M.bind_ok h]; rfl

section folds
variable (hk : LawfulKeys env)
include hk

theorem hset_fold (acc vs : List Val) (h1 : vs.Pairwise (· ≠ ·))
    (h2 : ∀ a ∈ acc, ∀ v ∈ vs, a ≠ v) :
    vs.foldl (collInsert env .hset) acc = acc ++ vs := by
  induction vs generalizing acc with
  | nil => simp
  | cons v vs ih =>
    have hn : acc.any (env.keyEq v) = false := by
      rw [List.any_eq_false]
      intro a ha hE
      exact h2 a ha v (by simp) ((hk.keyEq_iff _ _).1 hE).symm
    rw [List.pairwise_cons] at h1
    simp only [List.foldl_cons, collInsert, hsetInsert, hn]
    rw [if_neg (by simp), ih _ h1.2]
    · simp
    · intro a ha w hw
      rw [List.mem_append, List.mem_singleton] at ha
      rcases ha with ha | rfl
      · exact h2 a ha w (by simp [hw])
      · exact h1.1 w hw

theorem bsetInsert_last (acc : List Val) (x : Val) (h : ∀ a ∈ acc, env.cmp a x = .lt) :
    bsetInsert env acc x = acc ++ [x] := by
  induction acc with
  | nil => rfl
  | cons y s ih =>
    have hy := h y (by simp)
    have hgt := (hk.lt_iff_gt _ _).1 hy
    simp only [bsetInsert, hgt]
    rw [ih (fun a ha => h a (by simp [ha]))]; rfl

theorem bset_fold (acc vs : List Val) (h1 : vs.Pairwise (fun a b => env.cmp a b = .lt))
    (h2 : ∀ a ∈ acc, ∀ v ∈ vs, env.cmp a v = .lt) :
    vs.foldl (collInsert env .bset) acc = acc ++ vs := by
  induction vs generalizing acc with
  | nil => simp
  | cons v vs ih =>
    rw [List.pairwise_cons] at h1
    simp only [List.foldl_cons, collInsert]
    rw [bsetInsert_last hk _ _ (fun a ha => h2 a ha v (by simp)), ih _ h1.2]
    · simp
    · intro a ha w hw
      rw [List.mem_append, List.mem_singleton] at ha
      rcases ha with ha | rfl
      · exact h2 a ha w (by simp [hw])
      · exact h1.1 w hw

/-- Every element of the list is a map entry. -/
def AllEntries (vs : List Val) : Prop := ∀ v ∈ vs, ∃ a b, v = .entry a b

omit hk in
theorem EntriesTy.allEntries {k t vs} (h : EntriesTy env k t vs) : AllEntries vs := by
  induction vs with
  | nil => intro v hv; simp at hv
  | cons v vs ih =>
    cases v with
    | entry a b =>
      simp only [EntriesTy] at h
      intro w hw
      rcases List.mem_cons.1 hw with rfl | hw
      · exact ⟨a, b, rfl⟩
      · exact ih h.2.2 w hw
    | _ => simp [EntriesTy] at h

theorem hmapInsert_last (acc : List Val) (k v : Val) (hE : AllEntries acc)
    (h : ∀ a ∈ acc, a.key ≠ k) : hmapInsert env acc k v = acc ++ [.entry k v] := by
  induction acc with
  | nil => rfl
  | cons y s ih =>
    obtain ⟨a, b, rfl⟩ := hE y (by simp)
    have hy := h (.entry a b) (by simp)
    have : env.keyEq k a = false := by
      cases hh : env.keyEq k a with
      | false => rfl
      | true => exact absurd ((hk.keyEq_iff _ _).1 hh).symm (by simpa [Val.key] using hy)
    simp only [hmapInsert, this]
    rw [if_neg (by simp), ih (fun w hw => hE w (by simp [hw])) (fun w hw => h w (by simp [hw]))]; rfl

theorem hmap_fold (acc vs : List Val) (hEa : AllEntries acc) (hE : AllEntries vs)
    (h1 : vs.Pairwise (fun a b => a.key ≠ b.key))
    (h2 : ∀ a ∈ acc, ∀ v ∈ vs, a.key ≠ v.key) :
    vs.foldl (collInsert env .hmap) acc = acc ++ vs := by
  induction vs generalizing acc with
  | nil => simp
  | cons v vs ih =>
    rw [List.pairwise_cons] at h1
    obtain ⟨k, x, rfl⟩ := hE v (by simp)
    simp only [List.foldl_cons, collInsert]
    rw [hmapInsert_last hk _ _ _ hEa (fun a ha => by simpa [Val.key] using h2 a ha (.entry k x) (by simp)),
      ih _ _ (fun w hw => hE w (by simp [hw])) h1.2]
    · simp
    · intro a ha w hw
      rw [List.mem_append, List.mem_singleton] at ha
      rcases ha with ha | rfl
      · exact h2 a ha w (by simp [hw])
      · exact h1.1 w hw
    · intro a ha
      rw [List.mem_append, List.mem_singleton] at ha
      rcases ha with ha | rfl
      · exact hEa a ha
      · exact ⟨k, x, rfl⟩

theorem bmapInsert_last (acc : List Val) (k v : Val) (hE : AllEntries acc)
    (h : ∀ a ∈ acc, env.cmp a.key k = .lt) : bmapInsert env acc k v = acc ++ [.entry k v] := by
  induction acc with
  | nil => rfl
  | cons y s ih =>
    obtain ⟨a, b, rfl⟩ := hE y (by simp)
    have hy := h (.entry a b) (by simp)
    have hgt : env.cmp k a = .gt := (hk.lt_iff_gt _ _).1 (by simpa [Val.key] using hy)
    simp only [bmapInsert, hgt]
    rw [ih (fun w hw => hE w (by simp [hw])) (fun w hw => h w (by simp [hw]))]; rfl

theorem bmap_fold (acc vs : List Val) (hEa : AllEntries acc) (hE : AllEntries vs)
    (h1 : vs.Pairwise (fun a b => env.cmp a.key b.key = .lt))
    (h2 : ∀ a ∈ acc, ∀ v ∈ vs, env.cmp a.key v.key = .lt) :
    vs.foldl (collInsert env .bmap) acc = acc ++ vs := by
  induction vs generalizing acc with
  | nil => simp
  | cons v vs ih =>
    rw [List.pairwise_cons] at h1
    obtain ⟨k, x, rfl⟩ := hE v (by simp)
    simp only [List.foldl_cons, collInsert]
    rw [bmapInsert_last hk _ _ _ hEa (fun a ha => by simpa [Val.key] using h2 a ha (.entry k x) (by simp)),
      ih _ _ (fun w hw => hE w (by simp [hw])) h1.2]
    · simp
    · intro a ha w hw
      rw [List.mem_append, List.mem_singleton] at ha
      rcases ha with ha | rfl
      · exact h2 a ha w (by simp [hw])
      · exact h1.1 w hw
    · intro a ha
      rw [List.mem_append, List.mem_singleton] at ha
      rcases ha with ha | rfl
      · exact hEa a ha
      · exact ⟨k, x, rfl⟩

end folds

theorem serBinAll_eq (t : Ty) (vs : List Val) : serBinAll env t vs = vs.flatMap (serBin env t) := by
  induction vs with
  | nil => simp [serBinAll]
  | cons v vs ih => simp [serBinAll, ih]

/-- Encoding of one map entry. -/
def encEntry (env : Env) (k t : Ty) : Val → List Byte
  | .entry a b => serBin env k a ++ serBin env t b
  | _ => []

theorem serBinEntries_eq (k t : Ty) (vs : List Val) :
    serBinEntries env k t vs = vs.flatMap (encEntry env k t) := by
  induction vs with
  | nil => simp [serBinEntries]
  | cons v vs ih => cases v <;> simp [serBinEntries, ih, encEntry]

/-- What the round-trip induction says about one value. -/
def ReadsBack (env : Env) (chk : Bool) (d : List Byte) (t : Ty) (v : Val) : Prop :=
  ∀ o, At d o (serBin env t v) →
    Returns (fun n => deBin env chk d n t o) (.ok v (o + (serBin env t v).length))

/-- `deTys` reads back components. -/
theorem deTys_at (ts : List Ty) (vs : List Val) (hT : TysTy env ts vs)
    (ih : ∀ v ∈ vs, ∀ t, HasTy env t v → BinExact env t v → ReadsBack env chk d t v)
    (hH : HoldsTys env (fun _ w => ∀ s n, w = .time s n → 0 ≤ s) (fun f => f.tyDefault) false ts vs)
    (o : Nat) (h : At d o (serBinTys env ts vs)) :
    Returns (fun n => deTys (deBin env chk d n) ts o) (.ok vs (o + (serBinTys env ts vs).length)) := by
  induction ts generalizing vs o with
  | nil =>
    cases vs with
    | nil => exact ⟨0, fun n _ => by simp [deTys, serBinTys]⟩
    | cons => simp [TysTy] at hT
  | cons t ts iht =>
    cases vs with
    | nil => simp [TysTy] at hT
    | cons v vs =>
      simp only [TysTy] at hT
      simp only [HoldsTys] at hH
      simp only [serBinTys] at h
      obtain ⟨h1, h2⟩ := h.append
      obtain ⟨n1, h1⟩ := ih v (by simp) t hT.1 hH.1 o h1
      obtain ⟨n2, h2⟩ := iht vs hT.2 (fun w hw => ih w (by simp [hw])) hH.2 _ h2
      refine ⟨max n1 n2, fun n hn => ?_⟩
      have e1 := h1 n (by omega)
      have e2 := h2 n (by omega)
      simp only [deTys] at *
      rw [M.bind_ok e1, M.bind_ok e2]
      simp [serBinTys, Nat.add_assoc]

/-- `deBinFields` reads back fields. -/
theorem deFields_at (us : Bool) (fs : List Field) (vs : List Val) (hT : FieldsTy env fs vs)
    (ih : ∀ v ∈ vs, ∀ t, HasTy env t v → BinExact env t v → ReadsBack env chk d t v)
    (hH : HoldsFields env (fun _ w => ∀ s n, w = .time s n → 0 ≤ s) (fun f => f.tyDefault) false
      us fs vs)
    (o : Nat) (h : At d o (serBinFields env us fs vs)) :
    Returns (fun n => deBinFields (deBin env chk d n) us fs o)
      (.ok vs (o + (serBinFields env us fs vs).length)) := by
  induction fs generalizing vs o with
  | nil =>
    cases vs with
    | nil => exact ⟨0, fun n _ => by simp [deBinFields, serBinFields]⟩
    | cons => simp [FieldsTy] at hT
  | cons f fs iht =>
    cases vs with
    | nil => simp [FieldsTy] at hT
    | cons v vs =>
      simp only [FieldsTy] at hT
      simp only [HoldsFields] at hH
      simp only [serBinFields] at h
      by_cases hs : us = true ∧ f.skip = true
      · rw [if_pos hs, List.nil_append] at h
        rw [if_pos hs] at hH
        obtain ⟨n2, h2⟩ := iht vs hT.2 (fun w hw => ih w (by simp [hw])) hH.2 _ h
        refine ⟨n2, fun n hn => ?_⟩
        have e2 := h2 n hn
        simp only [deBinFields] at *
        rw [if_pos hs, M.bind_ok (M.pure_apply _ _), M.bind_ok e2]
        simp [serBinFields, hs, hH.1]
      · rw [if_neg hs] at h hH
        obtain ⟨h1, h2⟩ := h.append
        obtain ⟨n1, h1⟩ := ih v (by simp) f.ty hT.1 hH.1 o h1
        obtain ⟨n2, h2⟩ := iht vs hT.2 (fun w hw => ih w (by simp [hw])) hH.2 _ h2
        refine ⟨max n1 n2, fun n hn => ?_⟩
        have e1 := h1 n (by omega)
        have e2 := h2 n (by omega)
        simp only [deBinFields] at *
        rw [if_neg hs, M.bind_ok e1, M.bind_ok e2]
        simp only [M.pure_apply, serBinFields, if_neg hs, List.length_append, Nat.add_assoc]

theorem Returns.succ {ε σ α : Type} {f : Nat → Out ε σ α} {r} (h : Returns (fun n => f (n + 1)) r) :
    Returns f r := by
  obtain ⟨n0, h⟩ := h
  refine ⟨n0 + 1, fun n hn => ?_⟩
  cases n with
  | zero => omega
  | succ n => exact h n (by omega)

theorem Returns.const {ε σ α : Type} {f : Nat → Out ε σ α} {r} (h : ∀ n, f n = r) :
    Returns f r := ⟨0, fun n _ => h n⟩

/-- Sequencing of a fuelled computation and a continuation. -/
theorem Returns.bind {ε σ α β : Type} {x : Nat → M ε σ α} {f : Nat → α → M ε σ β} {s s1 : σ} {a : α} {r}
    (h : Returns (fun n => x n s) (.ok a s1)) (h2 : Returns (fun n => f n a s1) r) :
    Returns (fun n => (x n >>= f n) s) r := by
  obtain ⟨n1, h⟩ := h
  obtain ⟨n2, h2⟩ := h2
  refine ⟨max n1 n2, fun n hn => ?_⟩
  have e1 := h n (by omega)
  have e2 := h2 n (by omega)
  simp only at *
  rw [M.bind_ok e1, e2]

end NS
