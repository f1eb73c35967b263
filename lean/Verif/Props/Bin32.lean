import Verif.Lemmas.BinSays32
import Verif.Props.BinRead
/-!
# Property C96: binary data and 32-bit targets

`deserializeBin` is the reader on a 64-bit target, `W32.deserializeBin` the one on a 32-bit target (`Model/Bin32.lean`).
`W32.BinExact`: every `usize` and every number of elements in the value is below `2^32`, and so on (`Spec/Bin32.lean`).
-/
namespace NS
variable {env env' : Env} {chk : Bool}

set_option smartUnfolding false in
theorem serBin_retarget (h : W32.Retarget env env') (t : Ty) (v : Val) : serBin env' t v = serBin env t v := by
  obtain ⟨d, p, c, k, m, hc⟩ := env
  obtain ⟨d', p', c', k', m', hc'⟩ := env'
  obtain ⟨rfl, rfl, rfl, rfl⟩ := h
  with_unfolding_all rfl

/-- **C96**: what a program wrote on any target is read on a 32-bit target as the same value, if a 32-bit target has this value
at all.  (`env` and `env'` are the program on the one and the other target; `w` is the value up to its skipped fields.) -/
theorem C96_bin_to_32 (hr : W32.Retarget env env') (hk : LawfulKeys env') (hs : EnumsSmall env') (t : Ty) (v w : Val)
    (heq : EqUpToSkip env' t v w) (hT : HasTy env' t w) (hE : W32.BinExact env' t w)
    (hlen : (serializeBin env t v).length ≤ W32.isizeMax) :
    Returns (fun n => W32.deserializeBin env' chk n t (serializeBin env t v)) (.ok w (serializeBin env t v).length) := by
  have e0 : serializeBin env t v = serBin env' t w := by
    rw [serializeBin, ← serBin_retarget hr]; exact serBin_upToSkip v t w heq
  rw [e0] at hlen ⊢
  have := W32.readsBack (chk := chk) hk hs hlen w t hT hE 0 ⟨[], [], by simp, rfl⟩
  simpa [W32.deserializeBin] using this

/-- **C96**: what a program wrote on a 32-bit target is read on a 64-bit target as the same value. -/
theorem C96_bin_to_64 (hr : W32.Retarget env env') (hk : LawfulKeys env') (hs : EnumsSmall env') (t : Ty) (v w : Val)
    (heq : EqUpToSkip env' t v w) (hT : HasTy env' t w) (hE : BinExact env' t w)
    (hlen : (serializeBin env t v).length ≤ isizeMax) :
    Returns (fun n => deserializeBin env' chk n t (serializeBin env t v)) (.ok w (serializeBin env t v).length) := by
  have e0 : serializeBin env t v = serializeBin env' t v := (serBin_retarget hr t v).symm
  rw [e0] at hlen ⊢
  exact C01_bin_round_trip hk hs t v w heq hT hE hlen

/-- **C96**: at every offset of every input the 32-bit reader of `t` returns `v` and advances to `o'` exactly if the bytes from
there to `o'` stand for `v` on a 32-bit target. -/
theorem C96_bin32_reads_exactly (hk : LawfulKeys env) (t : Ty) (d : List Byte) (hd : d.length ≤ W32.isizeMax) (o : Nat)
    (ho : o ≤ d.length) (v : Val) (o' : Nat) :
    Returns (fun n => W32.deBin env chk d n t o) (.ok v o') ↔
      ∃ bs, At d o bs ∧ o' = o + bs.length ∧ W32.BinSays env t bs v := by
  constructor
  · rintro ⟨n, h⟩
    exact W32.Takes.deBin hk hd n t o v o' ho (h n (Nat.le_refl _))
  · rintro ⟨bs, h1, rfl, h2⟩
    exact W32.BinSays.gives hk hd h2 o h1

/-- **C96**: no error tells that a `usize` does not fit: the 32-bit reader returns its low half. -/
theorem C96_bin32_usize_truncated (i : Nat) (hi : i < 2 ^ 64) :
    Returns (fun n => W32.deserializeBin env chk n (.int .usize) (serializeBin env (.int .usize) (.int i))) (.ok (.int (i % 2 ^ 32 : Nat)) 8) := by
  have hl : (serializeBin env (.int .usize) (.int i)).length = 8 := by simp [serializeBin, serBin, serUsize]
  have := W32.Gives.readUsize (chk := chk) (d := serializeBin env (.int .usize) (.int i)) (by rw [hl]; decide) _ hl 0 ⟨[], [], by simp, rfl⟩
  have e : littleEndian (serializeBin env (.int .usize) (.int i)) = i := by
    rw [littleEndian_eq]
    simp only [serializeBin, serBin, serUsize, Int.toNat_natCast]
    exact leVal_leBytes _ _ (by rw [pow256]; omega)
  rw [e, hl] at this
  refine Returns.succ ?_
  exact Returns.bind this (Returns.const fun n => rfl)

/-- The types whose encoding begins with a `usize`. -/
def Ty.sized : Ty → Bool
  | .int .usize | .str | .vec _ | .linked _ | .hset _ | .bset _ | .hmap _ _ | .bmap _ _ => true
  | _ => false

theorem low_half {lo hi : List Byte} (h : lo.length = 4) : littleEndian (lo ++ hi) % 2 ^ 32 = littleEndian lo := by
  have hl := littleEndian_lt lo
  rw [h] at hl
  rw [littleEndian_eq, littleEndian_eq] at *
  match lo, h with
  | [a, b, c, d], _ =>
    simp only [List.cons_append, List.nil_append, leVal] at hl ⊢
    omega

theorem split8 {p xs lo hi bs : List Byte} (hp : p.length = 8) (h : lo.length = 4) (h' : hi.length = 4)
    (e : p ++ xs = lo ++ hi ++ bs) : p = lo ++ hi ∧ xs = bs :=
  List.append_inj e (by simp [h, h', hp])

theorem high_half {t : Ty} (ht : t.sized = true) {lo hi hi' bs : List Byte} {v : Val} (h1 : lo.length = 4) (h2 : hi.length = 4)
    (h3 : hi'.length = 4) (h : W32.BinSays env t (lo ++ hi ++ bs) v) : W32.BinSays env t (lo ++ hi' ++ bs) v := by
  have hl : (lo ++ hi').length = 8 := by simp [h1, h3]
  have hm : littleEndian (lo ++ hi') % 2 ^ 32 = littleEndian (lo ++ hi) % 2 ^ 32 := by rw [low_half h1, low_half h1]
  generalize e : lo ++ hi ++ bs = cs at h
  cases h with
  | @int k _ _ hu => cases k <;> first | (cases ht; done) | exact absurd rfl hu
  | usize hp =>
    have : bs = [] := by
      have := congrArg List.length e
      simp only [List.length_append, h1, h2, hp] at this
      exact List.length_eq_zero_iff.1 (by omega)
    subst this
    simp only [List.append_nil] at e ⊢
    rw [← e, ← hm]
    exact .usize hl
  | str hp g => obtain ⟨rfl, rfl⟩ := split8 hp h1 h2 e.symm; exact .str hl (hm.trans g)
  | vec ps hp g a b => obtain ⟨rfl, rfl⟩ := split8 hp h1 h2 e.symm; exact .vec ps hl (hm.trans g) a b
  | linked ps hp g a => obtain ⟨rfl, rfl⟩ := split8 hp h1 h2 e.symm; exact .linked ps hl (hm.trans g) a
  | hset ps hp g a b => obtain ⟨rfl, rfl⟩ := split8 hp h1 h2 e.symm; exact .hset ps hl (hm.trans g) a b
  | bset ps hp g a b => obtain ⟨rfl, rfl⟩ := split8 hp h1 h2 e.symm; exact .bset ps hl (hm.trans g) a b
  | hmap ps hp g a b c x y => obtain ⟨rfl, rfl⟩ := split8 hp h1 h2 e.symm; exact .hmap ps hl (hm.trans g) a b c x y
  | bmap ps hp g a b c x => obtain ⟨rfl, rfl⟩ := split8 hp h1 h2 e.symm; exact .bmap ps hl (hm.trans g) a b c x
  | _ => cases ht

/-- **C96**: where a 32-bit reader reads a `usize`, a `String` or a collection, four of the eight bytes of the number or
length are ignored: data in which they differ are read as the same value, without an error. -/
theorem C96_bin32_high_half_ignored (hk : LawfulKeys env) {t : Ty} (ht : t.sized = true) {lo hi hi' rest : List Byte}
    (h1 : lo.length = 4) (h2 : hi.length = 4) (h3 : hi'.length = 4) (hlen : (lo ++ hi ++ rest).length ≤ W32.isizeMax) (v : Val) (o : Nat) :
    Returns (fun n => W32.deserializeBin env chk n t (lo ++ hi ++ rest)) (.ok v o) ↔
      Returns (fun n => W32.deserializeBin env chk n t (lo ++ hi' ++ rest)) (.ok v o) := by
  have hlen' : (lo ++ hi' ++ rest).length ≤ W32.isizeMax := by simpa [h2, h3] using hlen
  have one : ∀ {hi hi' : List Byte}, hi.length = 4 → hi'.length = 4 →
      (∃ bs, At (lo ++ hi ++ rest) 0 bs ∧ o = 0 + bs.length ∧ W32.BinSays env t bs v) →
      ∃ bs, At (lo ++ hi' ++ rest) 0 bs ∧ o = 0 + bs.length ∧ W32.BinSays env t bs v := by
    rintro hi hi' h2 h3 ⟨bs, ⟨pre, post, e, hp⟩, ho, hb⟩
    obtain rfl := List.length_eq_zero_iff.1 hp
    rw [List.nil_append] at e
    have h8 : 8 ≤ bs.length := by
      clear e
      cases hb with
      | @int k _ _ hu => cases k <;> first | (cases ht; done) | exact absurd rfl hu
      | _ => first | (cases ht; done) | (simp only [List.length_append]; omega) | omega
    have e1 : bs = lo ++ hi ++ bs.drop 8 := by
      have := congrArg (List.take 8) e
      rw [List.take_append_of_le_length h8, List.take_left' (by simp [h1, h2])] at this
      rw [this]; simp
    have e2 : rest = bs.drop 8 ++ post := by
      rw [e1, List.append_assoc (lo ++ hi)] at e
      exact List.append_cancel_left e
    refine ⟨lo ++ hi' ++ bs.drop 8, ⟨[], post, by rw [e2]; simp, rfl⟩, ?_, ?_⟩
    · rw [ho]; simp [h1, h3]; omega
    · exact high_half ht h1 h2 h3 (e1 ▸ hb)
  exact (C96_bin32_reads_exactly hk t _ hlen 0 (Nat.zero_le _) v o).trans
    (Iff.intro (one h2 h3) (one h3 h2) |>.trans (C96_bin32_reads_exactly hk t _ hlen' 0 (Nat.zero_le _) v o).symm)

/-- **C96**: a length of `2^32 - 1` for a `String` makes the 32-bit reader panic, as `2^64 - 1` does on a 64-bit target (C05). -/
theorem C96_bin32_string_panics :
    Returns (fun n => W32.deserializeBin env chk n .str [255, 255, 255, 255, 0, 0, 0, 0]) .panic := by
  refine Returns.succ (Returns.const fun n => ?_)
  cases chk <;> rfl

/-! ## Examples -/

/-- C96: the node of the examples (a string, an `Option<Box<..>>`, a skipped field) is a value both targets have. -/
example : W32.Retarget exEnv { exEnv with memSize := fun _ => 4 } ∧ LawfulKeys { exEnv with memSize := fun _ => 4 } ∧
    W32.BinExact { exEnv with memSize := fun _ => 4 } (.named 0) exNodeVal' ∧ HasTy { exEnv with memSize := fun _ => 4 } (.named 0) exNodeVal' ∧
    W32.BinExact exEnv (.vec (.int .usize)) (.seq [.int 3, .int 4294967295]) := by
  refine ⟨⟨rfl, rfl, rfl, rfl⟩, ⟨exEnv_lawful.1, exEnv_lawful.2, exEnv_lawful.3, exEnv_lawful.4⟩, ?_, ?_, ?_⟩
  · simp [exNodeVal', W32.BinExact, W32.Fits, Holds, HoldsFields, exNode]
  · simp [exNodeVal', HasTy, FieldsTy, exNode, IntKind.inRange, IntKind.lo, IntKind.hi, IntKind.signed, IntKind.bytes]
  · simp [W32.BinExact, W32.Fits, Holds, HoldsAll, W32.isizeMax]

/-- C96: `vec![7u8]` with `2^32 + 1` for a length is read on a 32-bit target as `vec![7]`; no value on a 64-bit target. -/
example (hm : env.memSize (.int .u8) = 1) (hk : LawfulKeys env) :
    Returns (fun n => W32.deserializeBin env chk n (.vec (.int .u8)) [1, 0, 0, 0, 1, 0, 0, 0, 7]) (.ok (.seq [.int 7]) 9) ∧
    ∀ v, ¬ Decodes (fun n => deserializeBin env chk n (.vec (.int .u8)) [1, 0, 0, 0, 1, 0, 0, 0, 7]) v := by
  constructor
  · refine (C96_bin32_high_half_ignored (lo := [1, 0, 0, 0]) (hi := [1, 0, 0, 0]) (hi' := [0, 0, 0, 0]) (rest := [7]) hk rfl rfl rfl rfl
      (by decide) _ _).2 ?_
    refine (C96_bin32_reads_exactly hk _ _ (by decide) 0 (by decide) _ _).2 ⟨[1, 0, 0, 0, 0, 0, 0, 0, 7], ⟨[], [], rfl, rfl⟩, rfl, ?_⟩
    refine W32.BinSays.vec (p := [1, 0, 0, 0, 0, 0, 0, 0]) [([7], .int 7)] rfl (by decide) (by rw [hm]; decide) ?_
    simp only [List.mem_cons, List.not_mem_nil, or_false, forall_eq]
    exact .int (by decide) rfl (by decide) (by decide)
  · intro v h
    obtain ⟨bs, rest, e, hb⟩ := (C68_bin_deserialize_exactly hk _ _ (by decide) v).1 h
    cases hb with
    | @vec _ p ps hp hl hc hq =>
      have hb : ∀ q ∈ ps, q.1.length = 1 := fun q hq' => by
        have := hq q hq'
        generalize q.1 = a, q.2 = b at this
        cases this; assumption
      have e1 : p = [1, 0, 0, 0, 1, 0, 0, 0] := by
        have := congrArg (List.take 8) e
        rw [List.append_assoc, List.take_left' hp] at this
        exact this.symm
      subst e1
      have hn : ps.length = 2 ^ 32 + 1 := by rw [← hl]; decide
      have h2 : (ps.flatMap (·.1)).length = ps.length := by
        clear hl hn hq e hc h
        induction ps with
        | nil => rfl
        | cons q ps ih => simp [hb q (by simp), ih fun q hq => hb q (by simp [hq])]; omega
      have := congrArg List.length e
      simp only [List.length_append, h2, hn, List.length_cons, List.length_nil] at this
      omega

end NS
