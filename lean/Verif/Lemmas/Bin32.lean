import Verif.Spec.Bin32
import Verif.Lemmas.BinSays2
/-! Reading bytes on a 32-bit target (lemmas for C96; the proofs follow `Lemmas/Bin`, `BinLocal`, `BinRoundTrip`, `BinSays`
and `BinSays2`). -/
namespace NS.W32
variable {env : Env} {chk : Bool} {d : List Byte}


theorem addUsize_ok {a b o : Nat} (h : a + b < 2 ^ 32) :
    addUsize chk a b o = .ok (a + b) o := by simp only [addUsize, if_pos h]

theorem readPrim_eq {len o : Nat} (h : o + len ≤ d.length) (hd : d.length ≤ isizeMax) :
    readPrim chk d len o = .ok ((d.drop o).take len) (o + len) := by
  unfold isizeMax at hd
  have h1 : ∀ s, addUsize chk o len s = .ok (o + len) s := fun s => addUsize_ok (by omega)
  simp only [readPrim, M.bind_def, M.get_apply, h1]
  rw [if_neg (by omega)]
  simp only [M.bind_def, h1, slice]
  rw [if_pos ⟨by omega, h⟩]
  simp

theorem readPrim_at {bs o} (h : At d o bs) (hd : d.length ≤ isizeMax) :
    readPrim chk d bs.length o = .ok bs (o + bs.length) := by
  rw [readPrim_eq h.le hd, h.take]

theorem readPrim_le {n x o} (h : At d o (leBytes n x)) (hd : d.length ≤ isizeMax) :
    readPrim chk d n o = .ok (leBytes n x) (o + n) := by
  have := readPrim_at (chk := chk) h hd
  simpa using this

theorem readUsize_at {x o} (h : At d o (serUsize x)) (hx : x < 2 ^ 32) (hd : d.length ≤ isizeMax) :
    readUsize chk d o = .ok x (o + 8) := by
  have hl := h.le
  have ht := h.take
  simp only [serUsize, leBytes_length] at hl ht
  unfold isizeMax at hd
  have h1 : ∀ s, addUsize chk o 8 s = .ok (o + 8) s := fun s => addUsize_ok (by omega)
  simp only [readUsize, M.bind_def, M.get_apply, h1]
  rw [if_pos ⟨by omega, hl⟩]
  simp only [M.bind_def, h1, M.set_apply, M.pure_apply]
  rw [show o + 8 - o = 8 by omega, ht, leVal_leBytes _ _ (by rw [pow256]; omega), Nat.mod_eq_of_lt hx]

theorem deBinStr_at {s : List Char} {o} (h : At d o (serUsize (utf8 s).length ++ utf8 s))
    (hd : d.length ≤ isizeMax) :
    deBinStr chk d o = .ok s (o + (8 + (utf8 s).length)) := by
  obtain ⟨h1, h2⟩ := h.append
  have hl := h2.le
  have ht := h2.take
  simp only [serUsize, leBytes_length] at hl ht
  have hd' := hd
  unfold isizeMax at hd'
  have ha : ∀ s', addUsize chk (o + 8) (utf8 s).length s' = .ok (o + 8 + (utf8 s).length) s' :=
    fun s' => addUsize_ok (by omega)
  simp only [deBinStr]
  rw [M.bind_ok (readUsize_at h1 (by omega) hd)]
  simp only [M.bind_def, M.get_apply, ha]
  rw [if_neg (by omega)]
  simp only [M.bind_def, ha, slice]
  rw [if_pos ⟨by omega, by omega⟩]
  rw [show o + 8 + (utf8 s).length - (o + 8) = (utf8 s).length by omega, ht]
  simp only [fromUtf8_utf8]
  simp [M.bind_def, ha, Nat.add_assoc]

theorem deBinDur_at {s n o : Nat} (h : At d o (serBinDur s n)) (hs : s ≤ u64Max)
    (hn : n < 1000000000) (hd : d.length ≤ isizeMax) :
    deBinDur chk d o = .ok (s, n) (o + 12) := by
  obtain ⟨h1, h2⟩ := h.append
  simp only [leBytes_length] at h2
  unfold u64Max at hs
  simp only [deBinDur]
  rw [M.bind_ok (readPrim_le h1 hd), M.bind_ok (readPrim_le h2 hd)]
  rw [leVal_leBytes 8 s (by rw [pow256]; omega), leVal_leBytes 4 n (by rw [pow256]; omega)]
  rw [if_neg (by omega)]
  simp [durNew, hn]

/-- What the round-trip induction says about one value. -/
def ReadsBack (env : Env) (chk : Bool) (d : List Byte) (t : Ty) (v : Val) : Prop :=
  ∀ o, At d o (serBin env t v) →
    Returns (fun n => deBin env chk d n t o) (.ok v (o + (serBin env t v).length))

/-- `deTys` reads back components. -/
theorem deTys_at (ts : List Ty) (vs : List Val) (hT : TysTy env ts vs)
    (ih : ∀ v ∈ vs, ∀ t, HasTy env t v → BinExact env t v → ReadsBack env chk d t v)
    (hH : HoldsTys env (Fits env) (fun f => f.tyDefault) false ts vs)
    (o : Nat) (h : At d o (serBinTys env ts vs)) :
    Returns (fun n => deTys (deBin env chk d n) ts o) (.ok vs (o + (serBinTys env ts vs).length)) := by
  induction ts generalizing vs o with
  | nil =>
    cases vs with
    | nil => exact ⟨0, fun n _ => by simp [deTys, serBinTys]⟩
    | cons => simp [TysTy] at hT
  | cons t ts iht =>
    cases vs with
    | nil => simp [TysTy] at hT
    | cons v vs =>
      simp only [TysTy] at hT
      simp only [HoldsTys] at hH
      simp only [serBinTys] at h
      obtain ⟨h1, h2⟩ := h.append
      obtain ⟨n1, h1⟩ := ih v (by simp) t hT.1 hH.1 o h1
      obtain ⟨n2, h2⟩ := iht vs hT.2 (fun w hw => ih w (by simp [hw])) hH.2 _ h2
      refine ⟨max n1 n2, fun n hn => ?_⟩
      have e1 := h1 n (by omega)
      have e2 := h2 n (by omega)
      simp only [deTys] at *
      rw [M.bind_ok e1, M.bind_ok e2]
      simp [serBinTys, Nat.add_assoc]

/-- `deBinFields` reads back fields. -/
theorem deFields_at (us : Bool) (fs : List Field) (vs : List Val) (hT : FieldsTy env fs vs)
    (ih : ∀ v ∈ vs, ∀ t, HasTy env t v → BinExact env t v → ReadsBack env chk d t v)
    (hH : HoldsFields env (Fits env) (fun f => f.tyDefault) false
      us fs vs)
    (o : Nat) (h : At d o (serBinFields env us fs vs)) :
    Returns (fun n => deBinFields (deBin env chk d n) us fs o)
      (.ok vs (o + (serBinFields env us fs vs).length)) := by
  induction fs generalizing vs o with
  | nil =>
    cases vs with
    | nil => exact ⟨0, fun n _ => by simp [deBinFields, serBinFields]⟩
    | cons => simp [FieldsTy] at hT
  | cons f fs iht =>
    cases vs with
    | nil => simp [FieldsTy] at hT
    | cons v vs =>
      simp only [FieldsTy] at hT
      simp only [HoldsFields] at hH
      simp only [serBinFields] at h
      by_cases hs : us = true ∧ f.skip = true
      · rw [if_pos hs, List.nil_append] at h
        rw [if_pos hs] at hH
        obtain ⟨n2, h2⟩ := iht vs hT.2 (fun w hw => ih w (by simp [hw])) hH.2 _ h
        refine ⟨n2, fun n hn => ?_⟩
        have e2 := h2 n hn
        simp only [deBinFields] at *
        rw [if_pos hs, M.bind_ok (M.pure_apply _ _), M.bind_ok e2]
        simp [serBinFields, hs, hH.1]
      · rw [if_neg hs] at h hH
        obtain ⟨h1, h2⟩ := h.append
        obtain ⟨n1, h1⟩ := ih v (by simp) f.ty hT.1 hH.1 o h1
        obtain ⟨n2, h2⟩ := iht vs hT.2 (fun w hw => ih w (by simp [hw])) hH.2 _ h2
        refine ⟨max n1 n2, fun n hn => ?_⟩
        have e1 := h1 n (by omega)
        have e2 := h2 n (by omega)
        simp only [deBinFields] at *
        rw [if_neg hs, M.bind_ok e1, M.bind_ok e2]
        simp only [M.pure_apply, serBinFields, if_neg hs, List.length_append, Nat.add_assoc]

theorem addUsize_cases {a b o e o' : Nat} (h : addUsize chk a b o = .ok e o') :
    o' = o ∧ ((a + b < 2 ^ 32 ∧ e = a + b) ∨ (2 ^ 32 ≤ a + b ∧ chk = false ∧ e = (a + b) % 2 ^ 32)) := by
  unfold addUsize at h
  split at h
  · rename_i hlt
    injection h with h1 h2
    exact ⟨h2.symm, .inl ⟨hlt, h1.symm⟩⟩
  · split at h
    · simp at h
    · rename_i hge hc
      injection h with h1 h2
      exact ⟨h2.symm, .inr ⟨by omega, by simpa using hc, h1.symm⟩⟩

/-- A successful primitive read. -/
theorem readPrim_ok {d : List Byte} {len o : Nat} {bs : List Byte} {o' : Nat}
    (hl : len < 2 ^ 31) (hd : d.length ≤ isizeMax)
    (h : readPrim chk d len o = .ok bs o') :
    o' = o + len ∧ o + len ≤ d.length ∧ bs = (d.drop o).take len := by
  unfold isizeMax at hd
  simp only [readPrim, M.bind_def, M.get_apply] at h
  cases ha : addUsize chk o len o with
  | ok e s =>
    obtain ⟨rfl, hc⟩ := addUsize_cases ha
    simp only [ha] at h
    split at h
    · simp at h
    · rename_i hle
      simp only [M.bind_def, ha, NS.slice] at h
      by_cases hs : s ≤ e ∧ e ≤ d.length
      · rw [if_pos hs] at h
        simp at h
        rcases hc with ⟨_, rfl⟩ | ⟨h1, _, rfl⟩
        · refine ⟨h.2.symm, by omega, ?_⟩
          rw [← h.1]; congr 1; omega
        · omega
      · rw [if_neg hs] at h; simp at h
  | _ => simp [ha] at h

theorem readUsize_ok {d : List Byte} {o m o' : Nat} (hd : d.length ≤ isizeMax)
    (h : readUsize chk d o = .ok m o') :
    o' = o + 8 ∧ o + 8 ≤ d.length ∧ m = leVal ((d.drop o).take 8) % 2 ^ 32 := by
  unfold isizeMax at hd
  simp only [readUsize, M.bind_def, M.get_apply] at h
  cases ha : addUsize chk o 8 o with
  | ok e s =>
    obtain ⟨rfl, hc⟩ := addUsize_cases ha
    simp only [ha] at h
    split at h
    · rename_i hle
      simp [M.bind_def, ha] at h
      rcases hc with ⟨_, rfl⟩ | ⟨h1, _, rfl⟩
      · refine ⟨h.2.symm, by omega, ?_⟩
        rw [← h.1]; congr 3; omega
      · omega
    · simp at h
  | _ => simp [ha] at h

theorem readUsize_eq {d : List Byte} {o : Nat} (h : o + 8 ≤ d.length) (hd : d.length ≤ isizeMax) :
    readUsize chk d o = .ok (leVal ((d.drop o).take 8) % 2 ^ 32) (o + 8) := by
  unfold isizeMax at hd
  have h1 : ∀ s, addUsize chk o 8 s = .ok (o + 8) s := fun s => addUsize_ok (by omega)
  simp only [readUsize, M.bind_def, M.get_apply, h1]
  rw [if_pos ⟨by omega, h⟩]
  simp [M.bind_def, h1]

/-- The part of the `String` reader after the length prefix. -/
def strBody (chk : Bool) (len : Nat) (d : List Byte) : BinM (List Char) := do
  let o ← M.get
  let e ← addUsize chk o len
  if e > d.length then M.throw ⟨o, .length 1 d.length⟩
  else do
    let e' ← addUsize chk o len
    let bs ← slice d o e'
    match fromUtf8 bs with
    | some s => do
      let e'' ← addUsize chk o len
      M.set e''
      pure s
    | none => M.throw ⟨o, .length len d.length⟩

theorem strBody_ok {d : List Byte} {len o : Nat} {s : List Char} {o' : Nat}
    (hlen : len < 2 ^ 32) (ho : o ≤ d.length) (hd : d.length ≤ isizeMax)
    (h : strBody chk len d o = .ok s o') :
    o' = o + len ∧ o + len ≤ d.length ∧ fromUtf8 ((d.drop o).take len) = some s := by
  unfold isizeMax at hd
  simp only [strBody, M.bind_def, M.get_apply] at h
  cases ha : addUsize chk o len o with
  | ok e s' =>
    obtain ⟨rfl, hc⟩ := addUsize_cases ha
    simp only [ha] at h
    split at h
    · simp at h
    · rename_i hle
      simp only [M.bind_def, ha, NS.slice] at h
      by_cases hs : s' ≤ e ∧ e ≤ d.length
      · rw [if_pos hs] at h
        simp only at h
        rcases hc with ⟨_, rfl⟩ | ⟨h1, _, rfl⟩
        · rw [show s' + len - s' = len by omega] at h
          cases hu : fromUtf8 ((d.drop s').take len) with
          | none => simp [hu] at h
          | some r =>
            simp [hu, M.bind_def, ha] at h
            exact ⟨h.2.symm, by omega, by rw [h.1]⟩
        · omega
      · rw [if_neg hs] at h; simp at h
  | _ => simp [ha] at h

theorem strBody_eq {d : List Byte} {len o : Nat} (h : o + len ≤ d.length)
    (hd : d.length ≤ isizeMax) :
    strBody chk len d o = match fromUtf8 ((d.drop o).take len) with
      | some s => .ok s (o + len)
      | none => .err ⟨o, .length len d.length⟩ o := by
  unfold isizeMax at hd
  have ha : ∀ s', addUsize chk o len s' = .ok (o + len) s' := fun s' => addUsize_ok (by omega)
  simp only [strBody, M.bind_def, M.get_apply, ha]
  rw [if_neg (by omega)]
  simp only [M.bind_def, ha, NS.slice]
  rw [if_pos ⟨by omega, h⟩]
  rw [show o + len - o = len by omega]
  cases hu : fromUtf8 ((d.drop o).take len) with
  | none => simp only [hu]; rfl
  | some s => simp only [hu]; simp [M.bind_def, ha]

theorem deBinStr_eq_body (d : List Byte) :
    deBinStr chk d = readUsize chk d >>= fun len => strBody chk len d := rfl

/-- One primitive read followed by a pure continuation. -/
theorem prim_rt {n x o : Nat} {f : List Byte → Val} {v : Val} (hd : d.length ≤ isizeMax)
    (h : At d o (leBytes n x)) (hv : f (leBytes n x) = v) :
    (readPrim chk d n >>= fun bs => (pure (f bs) : BinM Val)) o = .ok v (o + (leBytes n x).length) := by
  rw [M.bind_ok (readPrim_le h hd)]; simp [hv]

theorem items_at {t : Ty} (vs : List Val)
    (ih : ∀ v ∈ vs, ∀ t, HasTy env t v → BinExact env t v → ReadsBack env chk d t v)
    (hT : AllTy env t vs)
    (hH : HoldsAll env (Fits env) (fun f => f.tyDefault) false t vs)
    (o : Nat) (h : At d o (serBinAll env t vs)) :
    Returns (fun n => repeatM (deBin env chk d n t) vs.length o)
      (.ok vs (o + (serBinAll env t vs).length)) := by
  rw [serBinAll_eq] at *
  refine repeatM_at vs (fun v hv o ho => ih v hv t ?_ ?_ o ho) o h
  · exact (AllTy_iff.1 hT) v hv
  · exact (HoldsAll_iff.1 hH) v hv

theorem entries_at {k t : Ty} (vs : List Val)
    (ih : ∀ w, sizeOf w < sizeOf (Val.seq vs) → ∀ t, HasTy env t w → BinExact env t w →
      ReadsBack env chk d t w)
    (hT : EntriesTy env k t vs)
    (hH : HoldsEntries env (Fits env) (fun f => f.tyDefault) false
      k t vs)
    (o : Nat) (h : At d o (serBinEntries env k t vs)) :
    Returns (fun n => repeatM (entryM (deBin env chk d n k) (deBin env chk d n t)) vs.length o)
      (.ok vs (o + (serBinEntries env k t vs).length)) := by
  rw [serBinEntries_eq] at *
  refine repeatM_at vs (fun v hv o ho => ?_) o h
  have hsz : sizeOf v < sizeOf (Val.seq vs) := by
    have := Val.sizeOf_mem hv
    simp; omega
  -- typing of this entry
  have key : ∃ a b, v = .entry a b ∧ HasTy env k a ∧ HasTy env t b ∧ BinExact env k a ∧
      BinExact env t b := by
    clear ho h hsz ih
    induction vs with
    | nil => simp at hv
    | cons w ws ihw =>
      cases w with
      | entry a b =>
        simp only [EntriesTy] at hT
        simp only [HoldsEntries] at hH
        rcases List.mem_cons.1 hv with rfl | hv
        · exact ⟨a, b, rfl, hT.1, hT.2.1, hH.1, hH.2.1⟩
        · exact ihw hT.2.2 hH.2.2 hv
      | _ => simp [EntriesTy] at hT
  obtain ⟨a, b, rfl, ha, hb, ha', hb'⟩ := key
  simp only [encEntry] at ho ⊢
  obtain ⟨h1, h2⟩ := ho.append
  have hsa : sizeOf a < sizeOf (Val.seq vs) := by simp at hsz ⊢; omega
  have hsb : sizeOf b < sizeOf (Val.seq vs) := by simp at hsz ⊢; omega
  refine Returns.bind (ih a hsa k ha ha' o h1) (Returns.bind (ih b hsb t hb hb' _ h2) ?_)
  exact Returns.const fun n => by simp [Nat.add_assoc]

theorem readsBack (hk : LawfulKeys env) (hs : EnumsSmall env) (hd : d.length ≤ isizeMax) (v : Val) :
    ∀ t, HasTy env t v → BinExact env t v → ReadsBack env chk d t v := by
  induction v using Val.sizeInd with
  | h v ih =>
  intro t hT hE o hA
  apply Returns.succ
  cases t with
  | unit =>
    cases v <;> simp [HasTy] at hT
    exact Returns.const fun n => by simp [deBin, serBin]
  | bool =>
    cases v <;> simp [HasTy] at hT
    rename_i b
    refine Returns.const fun n => ?_
    simp only [serBin] at hA ⊢
    simp only [deBin]
    cases b
    · exact prim_rt (n := 1) (x := 0) hd (by exact hA) (by rfl)
    · exact prim_rt (n := 1) (x := 1) hd (by exact hA) (by rfl)
  | int k =>
    cases v <;> simp [HasTy] at hT
    rename_i i
    refine Returns.const fun n => ?_
    cases k
    case usize =>
      simp only [serBin] at hA ⊢
      simp only [deBin]
      simp [IntKind.inRange, IntKind.lo, IntKind.hi, IntKind.signed, IntKind.bytes] at hT
      simp only [BinExact, Holds, Fits] at hE
      rw [M.bind_ok (readUsize_at hA (by omega) hd)]
      simp [serUsize, Int.toNat_of_nonneg hT.1]
    all_goals
      simp only [serBin] at hA ⊢
      simp only [deBin]
      refine prim_rt hd hA ?_
      rw [leVal_leBytes _ _ (by rw [pow256]; exact toTwos_lt _ _), ofTwos_toTwos _ _ hT]
  | f32 =>
    cases v <;> simp [HasTy] at hT
    rename_i x
    refine Returns.const fun n => ?_
    simp only [serBin] at hA ⊢
    simp only [deBin]
    refine prim_rt hd hA ?_
    have := x.isLt
    rw [leVal_leBytes _ _ (by rw [pow256]; omega)]; simp
  | f64 =>
    cases v <;> simp [HasTy] at hT
    rename_i x
    refine Returns.const fun n => ?_
    simp only [serBin] at hA ⊢
    simp only [deBin]
    refine prim_rt hd hA ?_
    have := x.isLt
    rw [leVal_leBytes _ _ (by rw [pow256]; omega)]; simp
  | str =>
    cases v <;> simp [HasTy] at hT
    refine Returns.const fun n => ?_
    simp only [serBin] at hA ⊢
    simp only [deBin]
    rw [M.bind_ok (deBinStr_at hA hd)]
    simp [serUsize]
  | dur =>
    cases v <;> simp [HasTy] at hT
    refine Returns.const fun n => ?_
    simp only [serBin] at hA ⊢
    simp only [deBin]
    rw [M.bind_ok (deBinDur_at hA hT.1 hT.2 hd)]
    simp [serBinDur]
  | time =>
    cases v <;> simp only [HasTy] at hT
    rename_i s ns
    refine Returns.const fun n => ?_
    have h0 : 0 ≤ s := by
      simp only [BinExact, Holds, Fits] at hE
      exact hE
    simp only [serBin, if_pos h0] at hA ⊢
    obtain ⟨h1, h2⟩ := At.append (a := leBytes 1 1) hA
    simp only [deBin]
    rw [M.bind_ok (readPrim_le h1 hd)]
    rw [if_pos (by rw [leVal_leBytes _ _ (by decide)])]
    simp only [leBytes_length] at h2
    rw [M.bind_ok (deBinDur_at h2 (by unfold u64Max; omega) hT.2.2 hd)]
    simp only [epochPlus]
    rw [if_pos (by omega), Int.toNat_of_nonneg h0]
    simp [serBinDur, Nat.add_assoc]
  | option t =>
    cases v <;> simp only [HasTy] at hT
    · refine Returns.const fun n => ?_
      simp only [serBin] at hA ⊢
      have h1 : At d o (leBytes 1 0) := hA
      simp only [deBin]
      rw [M.bind_ok (readPrim_le h1 hd), if_neg (by rw [leVal_leBytes _ _ (by decide)]; decide)]
      simp
    · rename_i v
      simp only [BinExact, Holds, Fits] at hE
      simp only [serBin] at hA ⊢
      obtain ⟨h1, h2⟩ := At.append (a := leBytes 1 1) hA
      simp only [deBin]
      obtain ⟨n0, h2⟩ := ih v (by simp) t hT hE.2 _ h2
      refine ⟨n0, fun n hn => ?_⟩
      simp only
      rw [M.bind_ok (readPrim_le h1 hd), if_pos (by rw [leVal_leBytes _ _ (by decide)])]
      have := h2 n hn
      simp only [leBytes_length] at this
      rw [M.bind_ok this]
      simp; omega
  | vec t =>
    cases v <;> simp only [HasTy] at hT
    rename_i vs
    simp only [BinExact, Holds, Fits] at hE
    simp only [serBin] at hA ⊢
    obtain ⟨h1, h2⟩ := At.append hA
    simp only [deBin]
    have hl := items_at vs (fun v hv => ih v (by have := Val.sizeOf_mem hv; simp; omega)) hT.1 hE.2 _ h2
    refine Returns.bind (Returns.const fun n => readUsize_at h1 (by omega) hd) ?_
    refine Returns.bind (Returns.const (r := .ok () (o + 8)) fun n => by
      simp only [vecCap]; rw [if_pos hE.1.2]) ?_
    simp only [serUsize, leBytes_length] at hl
    refine Returns.bind hl (Returns.const fun n => ?_)
    simp [serUsize, Nat.add_assoc]
  | linked t =>
    cases v <;> simp only [HasTy] at hT
    rename_i vs
    simp only [BinExact, Holds, Fits] at hE
    simp only [serBin] at hA ⊢
    obtain ⟨h1, h2⟩ := At.append hA
    simp only [deBin]
    have hl := items_at vs (fun v hv => ih v (by have := Val.sizeOf_mem hv; simp; omega)) hT.1 hE.2 _ h2
    refine Returns.bind (Returns.const fun n => readUsize_at h1 (by omega) hd) ?_
    simp only [serUsize, leBytes_length] at hl
    refine Returns.bind hl (Returns.const fun n => ?_)
    simp [serUsize, Nat.add_assoc]
  | hset t =>
    cases v <;> simp only [HasTy] at hT
    rename_i vs
    simp only [BinExact, Holds, Fits] at hE
    simp only [serBin] at hA ⊢
    obtain ⟨h1, h2⟩ := At.append hA
    simp only [deBin]
    have hl := items_at vs (fun v hv => ih v (by have := Val.sizeOf_mem hv; simp; omega)) hT.1 hE.2 _ h2
    refine Returns.bind (Returns.const fun n => readUsize_at h1 (by omega) hd) ?_
    refine Returns.bind (Returns.const (r := .ok () (o + 8)) fun n => by
      simp only [hashCap]; rw [if_neg (by rw [hT.2.2.1]; simp)]) ?_
    simp only [serUsize, leBytes_length] at hl
    have hf := hset_fold hk [] vs hT.2.2.2 (by simp)
    obtain ⟨n0, hl⟩ := hl
    refine ⟨n0, fun n hn => ?_⟩
    have := insertLoop_ok (env := env) (c := .hset) (hl n hn) []
    rw [hf] at this
    simp only
    rw [M.bind_ok this]
    simp [serUsize, Nat.add_assoc]
  | bset t =>
    cases v <;> simp only [HasTy] at hT
    rename_i vs
    simp only [BinExact, Holds, Fits] at hE
    simp only [serBin] at hA ⊢
    obtain ⟨h1, h2⟩ := At.append hA
    simp only [deBin]
    have hl := items_at vs (fun v hv => ih v (by have := Val.sizeOf_mem hv; simp; omega)) hT.1 hE.2 _ h2
    refine Returns.bind (Returns.const fun n => readUsize_at h1 (by omega) hd) ?_
    simp only [serUsize, leBytes_length] at hl
    have hf := bset_fold hk [] vs hT.2.2 (by simp)
    obtain ⟨n0, hl⟩ := hl
    refine ⟨n0, fun n hn => ?_⟩
    have := insertLoop_ok (env := env) (c := .bset) (hl n hn) []
    rw [hf] at this
    simp only
    rw [M.bind_ok this]
    simp [serUsize, Nat.add_assoc]
  | array t len =>
    cases v <;> simp only [HasTy] at hT
    rename_i vs
    simp only [BinExact, Holds, Fits] at hE
    simp only [serBin] at hA ⊢
    simp only [deBin]
    obtain ⟨hT1, rfl⟩ := hT
    have hl := items_at vs (fun v hv => ih v (by have := Val.sizeOf_mem hv; simp; omega)) hT1 hE.2 _ hA
    exact Returns.bind hl (Returns.const fun n => by simp)
  | pair a b =>
    cases v <;> simp only [HasTy] at hT
    rename_i vs
    simp only [BinExact, Holds, Fits] at hE
    simp only [serBin] at hA ⊢
    simp only [deBin]
    have hl := deTys_at [a, b] vs hT (fun v hv => ih v (by have := Val.sizeOf_mem hv; simp; omega)) hE.2 o hA
    exact Returns.bind hl (Returns.const fun n => by simp)
  | triple a b c =>
    cases v <;> simp only [HasTy] at hT
    rename_i vs
    simp only [BinExact, Holds, Fits] at hE
    simp only [serBin] at hA ⊢
    simp only [deBin]
    have hl := deTys_at [a, b, c] vs hT (fun v hv => ih v (by have := Val.sizeOf_mem hv; simp; omega)) hE.2 o hA
    exact Returns.bind hl (Returns.const fun n => by simp)
  | quad a b c e =>
    cases v <;> simp only [HasTy] at hT
    rename_i vs
    simp only [BinExact, Holds, Fits] at hE
    simp only [serBin] at hA ⊢
    simp only [deBin]
    have hl := deTys_at [a, b, c, e] vs hT (fun v hv => ih v (by have := Val.sizeOf_mem hv; simp; omega)) hE.2 o hA
    exact Returns.bind hl (Returns.const fun n => by simp)
  | hmap k t =>
    cases v <;> simp only [HasTy] at hT
    rename_i vs
    simp only [BinExact, Holds, Fits] at hE
    simp only [serBin] at hA ⊢
    obtain ⟨h1, h2⟩ := At.append hA
    simp only [deBin]
    have hl := entries_at vs ih hT.1 hE.2 _ h2
    refine Returns.bind (Returns.const fun n => readUsize_at h1 (by omega) hd) ?_
    refine Returns.bind (Returns.const (r := .ok () (o + 8)) fun n => by
      simp only [hashCap]; rw [if_neg (by rw [hT.2.2.1]; simp)]) ?_
    simp only [serUsize, leBytes_length] at hl
    have hf := hmap_fold hk [] vs (by intro v hv; simp at hv) hT.1.allEntries hT.2.2.2 (by simp)
    obtain ⟨n0, hl⟩ := hl
    refine ⟨n0, fun n hn => ?_⟩
    have := insertLoop_ok (env := env) (c := .hmap) (hl n hn) []
    rw [hf] at this
    simp only
    rw [M.bind_ok this]
    simp [serUsize, Nat.add_assoc]
  | bmap k t =>
    cases v <;> simp only [HasTy] at hT
    rename_i vs
    simp only [BinExact, Holds, Fits] at hE
    simp only [serBin] at hA ⊢
    obtain ⟨h1, h2⟩ := At.append hA
    simp only [deBin]
    have hl := entries_at vs ih hT.1 hE.2 _ h2
    refine Returns.bind (Returns.const fun n => readUsize_at h1 (by omega) hd) ?_
    simp only [serUsize, leBytes_length] at hl
    have hf := bmap_fold hk [] vs (by intro v hv; simp at hv) hT.1.allEntries hT.2.2 (by simp)
    obtain ⟨n0, hl⟩ := hl
    refine ⟨n0, fun n hn => ?_⟩
    have := insertLoop_ok (env := env) (c := .bmap) (hl n hn) []
    rw [hf] at this
    simp only
    rw [M.bind_ok this]
    simp [serUsize, Nat.add_assoc]
  | box t =>
    cases v <;> simp only [HasTy] at hT
    rename_i v
    simp only [BinExact, Holds, Fits] at hE
    simp only [serBin] at hA ⊢
    simp only [deBin]
    exact Returns.bind (ih v (by simp) t hT hE.2 o hA) (Returns.const fun n => by simp)
  | named i =>
    cases v with
    | struct vs =>
      simp only [HasTy] at hT
      simp only [BinExact, Holds, Fits] at hE
      simp only [serBin] at hA ⊢
      simp only [deBin]
      cases hdef : env.defs[i]? with
      | none => simp [hdef] at hT
      | some df =>
        cases df with
        | struct fs cd nn =>
          simp only [hdef] at hT hE hA ⊢
          have hl := deFields_at true fs vs hT
            (fun v hv => ih v (by have := Val.sizeOf_mem hv; simp; omega)) hE.2 o hA
          exact Returns.bind hl (Returns.const fun n => by simp)
        | tuple ts tr =>
          simp only [hdef] at hT hE hA ⊢
          have hl := deTys_at ts vs hT
            (fun v hv => ih v (by have := Val.sizeOf_mem hv; simp; omega)) hE.2 o hA
          exact Returns.bind hl (Returns.const fun n => by simp)
        | enum vars => simp [hdef] at hT
    | variant j vs =>
      simp only [HasTy] at hT
      simp only [BinExact, Holds, Fits] at hE
      simp only [serBin] at hA ⊢
      simp only [deBin]
      cases hdef : env.defs[i]? with
      | none => simp [hdef] at hT
      | some df =>
        cases df with
        | struct fs cd nn => simp [hdef] at hT
        | tuple ts tr => simp [hdef] at hT
        | enum vars =>
          simp only [hdef] at hT hE hA ⊢
          cases hvar : vars[j]? with
          | none => simp [hvar] at hT
          | some var =>
            have hj : j < 256 ^ 2 := by
              have h1 := hs i vars hdef
              have h2 : j < vars.length := by
                rcases List.getElem?_eq_some_iff.1 hvar with ⟨h, _⟩; exact h
              omega
            have hjv := leVal_leBytes 2 j hj
            obtain ⟨nm, rn, sh⟩ := var
            cases sh with
            | unit =>
              simp only [hvar] at hT hE hA ⊢
              refine Returns.const fun n => ?_
              rw [M.bind_ok (readPrim_le hA hd)]
              simp only [hjv, hvar, deBinShape]
              rw [M.bind_ok (M.pure_apply _ _)]
              simp [hT]
            | tuple ts =>
              simp only [hvar] at hT hE hA ⊢
              obtain ⟨h1, h2⟩ := At.append hA
              have hl := deTys_at ts vs hT
                (fun v hv => ih v (by have := Val.sizeOf_mem hv; simp; omega)) hE.2 _ h2
              refine Returns.bind (Returns.const fun n => readPrim_le h1 hd) ?_
              simp only [hjv, hvar, deBinShape]
              simp only [leBytes_length] at hl
              refine Returns.bind hl (Returns.const fun n => by simp [Nat.add_assoc])
            | named fs =>
              simp only [hvar] at hT hE hA ⊢
              obtain ⟨h1, h2⟩ := At.append hA
              have hl := deFields_at false fs vs hT
                (fun v hv => ih v (by have := Val.sizeOf_mem hv; simp; omega)) hE.2 _ h2
              refine Returns.bind (Returns.const fun n => readPrim_le h1 hd) ?_
              simp only [hjv, hvar, deBinShape]
              simp only [leBytes_length] at hl
              refine Returns.bind hl (Returns.const fun n => by simp [Nat.add_assoc])
    | _ => simp [HasTy] at hT
  | proxied i =>
    cases v <;> simp only [HasTy] at hT
    rename_i og p
    simp only [BinExact, Holds, Fits] at hE
    simp only [serBin] at hA ⊢
    simp only [deBin]
    cases hp : env.proxies[i]? with
    | none => simp [hp] at hT
    | some px =>
      simp only [hp] at hT hE hA ⊢
      obtain ⟨h1, h2, h3⟩ := hT
      refine Returns.bind (ih p (by simp) px.ty h1 hE.2 o hA) (Returns.const fun n => ?_)
      simp [h2, h3]

end NS.W32
