import Verif.Lemmas.Bin
/-! The binary round trip: the induction. -/
namespace NS
variable {env : Env} {chk : Bool} {d : List Byte}

/-- One primitive read followed by a pure continuation. -/
theorem prim_rt {n x o : Nat} {f : List Byte → Val} {v : Val} (hd : d.length ≤ isizeMax)
    (h : At d o (leBytes n x)) (hv : f (leBytes n x) = v) :
    (readPrim chk d n >>= fun bs => (pure (f bs) : BinM Val)) o = .ok v (o + (leBytes n x).length) := by
  rw [M.bind_ok (readPrim_le h hd)]; simp [hv]

theorem items_at {t : Ty} (vs : List Val)
    (ih : ∀ v ∈ vs, ∀ t, HasTy env t v → BinExact env t v → ReadsBack env chk d t v)
    (hT : AllTy env t vs)
    (hH : HoldsAll env (fun _ w => ∀ s n, w = .time s n → 0 ≤ s) (fun f => f.tyDefault) false t vs)
    (o : Nat) (h : At d o (serBinAll env t vs)) :
    Returns (fun n => repeatM (deBin env chk d n t) vs.length o)
      (.ok vs (o + (serBinAll env t vs).length)) := by
  rw [serBinAll_eq] at *
  refine repeatM_at vs (fun v hv o ho => ih v hv t ?_ ?_ o ho) o h
  · exact (AllTy_iff.1 hT) v hv
  · exact (HoldsAll_iff.1 hH) v hv

theorem entries_at {k t : Ty} (vs : List Val)
    (ih : ∀ w, sizeOf w < sizeOf (Val.seq vs) → ∀ t, HasTy env t w → BinExact env t w →
      ReadsBack env chk d t w)
    (hT : EntriesTy env k t vs)
    (hH : HoldsEntries env (fun _ w => ∀ s n, w = .time s n → 0 ≤ s) (fun f => f.tyDefault) false
      k t vs)
    (o : Nat) (h : At d o (serBinEntries env k t vs)) :
    Returns (fun n => repeatM (entryM (deBin env chk d n k) (deBin env chk d n t)) vs.length o)
      (.ok vs (o + (serBinEntries env k t vs).length)) := by
  rw [serBinEntries_eq] at *
  refine repeatM_at vs (fun v hv o ho => ?_) o h
  have hsz : sizeOf v < sizeOf (Val.seq vs) := by
    have := Val.sizeOf_mem hv
    simp; omega
  -- typing of this entry
  have key : ∃ a b, v = .entry a b ∧ HasTy env k a ∧ HasTy env t b ∧ BinExact env k a ∧
      BinExact env t b := by
    clear ho h hsz ih
    induction vs with
    | nil => simp at hv
    | cons w ws ihw =>
      cases w with
      | entry a b =>
        simp only [EntriesTy] at hT
        simp only [HoldsEntries] at hH
        rcases List.mem_cons.1 hv with rfl | hv
        · exact ⟨a, b, rfl, hT.1, hT.2.1, hH.1, hH.2.1⟩
        · exact ihw hT.2.2 hH.2.2 hv
      | _ => simp [EntriesTy] at hT
  obtain ⟨a, b, rfl, ha, hb, ha', hb'⟩ := key
  simp only [encEntry] at ho ⊢
  obtain ⟨h1, h2⟩ := ho.append
  have hsa : sizeOf a < sizeOf (Val.seq vs) := by simp at hsz ⊢; omega
  have hsb : sizeOf b < sizeOf (Val.seq vs) := by simp at hsz ⊢; omega
  refine Returns.bind (ih a hsa k ha ha' o h1) (Returns.bind (ih b hsb t hb hb' _ h2) ?_)
  exact Returns.const fun n => by simp [Nat.add_assoc]

theorem readsBack (hk : LawfulKeys env) (hs : EnumsSmall env) (hd : d.length ≤ isizeMax) (v : Val) :
    ∀ t, HasTy env t v → BinExact env t v → ReadsBack env chk d t v := by
  induction v using Val.sizeInd with
  | h v ih =>
  intro t hT hE o hA
  apply Returns.succ
  cases t with
  | unit =>
    cases v <;> simp [HasTy] at hT
    exact Returns.const fun n => by simp [deBin, serBin]
  | bool =>
    cases v <;> simp [HasTy] at hT
    rename_i b
    refine Returns.const fun n => ?_
    simp only [serBin] at hA ⊢
    simp only [deBin]
    cases b
    · exact prim_rt (n := 1) (x := 0) hd (by exact hA) (by rfl)
    · exact prim_rt (n := 1) (x := 1) hd (by exact hA) (by rfl)
  | int k =>
    cases v <;> simp [HasTy] at hT
    rename_i i
    refine Returns.const fun n => ?_
    cases k
    case usize =>
      simp only [serBin] at hA ⊢
      simp only [deBin]
      simp [IntKind.inRange, IntKind.lo, IntKind.hi, IntKind.signed, IntKind.bytes] at hT
      rw [M.bind_ok (readUsize_at hA (by omega) hd)]
      simp [serUsize, Int.toNat_of_nonneg hT.1]
    all_goals
      simp only [serBin] at hA ⊢
      simp only [deBin]
      refine prim_rt hd hA ?_
      rw [leVal_leBytes _ _ (by rw [pow256]; exact toTwos_lt _ _), ofTwos_toTwos _ _ hT]
  | f32 =>
    cases v <;> simp [HasTy] at hT
    rename_i x
    refine Returns.const fun n => ?_
    simp only [serBin] at hA ⊢
    simp only [deBin]
    refine prim_rt hd hA ?_
    have := x.isLt
    rw [leVal_leBytes _ _ (by rw [pow256]; omega)]; simp
  | f64 =>
    cases v <;> simp [HasTy] at hT
    rename_i x
    refine Returns.const fun n => ?_
    simp only [serBin] at hA ⊢
    simp only [deBin]
    refine prim_rt hd hA ?_
    have := x.isLt
    rw [leVal_leBytes _ _ (by rw [pow256]; omega)]; simp
  | str =>
    cases v <;> simp [HasTy] at hT
    refine Returns.const fun n => ?_
    simp only [serBin] at hA ⊢
    simp only [deBin]
    rw [M.bind_ok (deBinStr_at hA hd)]
    simp [serUsize]
  | dur =>
    cases v <;> simp [HasTy] at hT
    refine Returns.const fun n => ?_
    simp only [serBin] at hA ⊢
    simp only [deBin]
    rw [M.bind_ok (deBinDur_at hA hT.1 hT.2 hd)]
    simp [serBinDur]
  | time =>
    cases v <;> simp only [HasTy] at hT
    rename_i s ns
    refine Returns.const fun n => ?_
    have h0 : 0 ≤ s := by
      simp only [BinExact, Holds] at hE
      exact hE s ns rfl
    simp only [serBin, if_pos h0] at hA ⊢
    obtain ⟨h1, h2⟩ := At.append (a := leBytes 1 1) hA
    simp only [deBin]
    rw [M.bind_ok (readPrim_le h1 hd)]
    rw [if_pos (by rw [leVal_leBytes _ _ (by decide)])]
    simp only [leBytes_length] at h2
    rw [M.bind_ok (deBinDur_at h2 (by unfold u64Max; omega) hT.2.2 hd)]
    simp only [epochPlus]
    rw [if_pos (by omega), Int.toNat_of_nonneg h0]
    simp [serBinDur, Nat.add_assoc]
  | option t =>
    cases v <;> simp only [HasTy] at hT
    · refine Returns.const fun n => ?_
      simp only [serBin] at hA ⊢
      have h1 : At d o (leBytes 1 0) := hA
      simp only [deBin]
      rw [M.bind_ok (readPrim_le h1 hd), if_neg (by rw [leVal_leBytes _ _ (by decide)]; decide)]
      simp
    · rename_i v
      simp only [BinExact, Holds] at hE
      simp only [serBin] at hA ⊢
      obtain ⟨h1, h2⟩ := At.append (a := leBytes 1 1) hA
      simp only [deBin]
      obtain ⟨n0, h2⟩ := ih v (by simp) t hT hE.2 _ h2
      refine ⟨n0, fun n hn => ?_⟩
      simp only
      rw [M.bind_ok (readPrim_le h1 hd), if_pos (by rw [leVal_leBytes _ _ (by decide)])]
      have := h2 n hn
      simp only [leBytes_length] at this
      rw [M.bind_ok this]
      simp; omega
  | vec t =>
    cases v <;> simp only [HasTy] at hT
    rename_i vs
    simp only [BinExact, Holds] at hE
    simp only [serBin] at hA ⊢
    obtain ⟨h1, h2⟩ := At.append hA
    simp only [deBin]
    have hl := items_at vs (fun v hv => ih v (by have := Val.sizeOf_mem hv; simp; omega)) hT.1 hE.2 _ h2
    refine Returns.bind (Returns.const fun n => readUsize_at h1 (by unfold u64Max at hT; omega) hd) ?_
    refine Returns.bind (Returns.const (r := .ok () (o + 8)) fun n => by
      simp only [vecCap]; rw [if_pos hT.2.2]) ?_
    simp only [serUsize, leBytes_length] at hl
    refine Returns.bind hl (Returns.const fun n => ?_)
    simp [serUsize, Nat.add_assoc]
  | linked t =>
    cases v <;> simp only [HasTy] at hT
    rename_i vs
    simp only [BinExact, Holds] at hE
    simp only [serBin] at hA ⊢
    obtain ⟨h1, h2⟩ := At.append hA
    simp only [deBin]
    have hl := items_at vs (fun v hv => ih v (by have := Val.sizeOf_mem hv; simp; omega)) hT.1 hE.2 _ h2
    refine Returns.bind (Returns.const fun n => readUsize_at h1 (by unfold u64Max at hT; omega) hd) ?_
    simp only [serUsize, leBytes_length] at hl
    refine Returns.bind hl (Returns.const fun n => ?_)
    simp [serUsize, Nat.add_assoc]
  | hset t =>
    cases v <;> simp only [HasTy] at hT
    rename_i vs
    simp only [BinExact, Holds] at hE
    simp only [serBin] at hA ⊢
    obtain ⟨h1, h2⟩ := At.append hA
    simp only [deBin]
    have hl := items_at vs (fun v hv => ih v (by have := Val.sizeOf_mem hv; simp; omega)) hT.1 hE.2 _ h2
    refine Returns.bind (Returns.const fun n => readUsize_at h1 (by unfold u64Max at hT; omega) hd) ?_
    refine Returns.bind (Returns.const (r := .ok () (o + 8)) fun n => by
      simp only [hashCap]; rw [if_neg (by rw [hT.2.2.1]; simp)]) ?_
    simp only [serUsize, leBytes_length] at hl
    have hf := hset_fold hk [] vs hT.2.2.2 (by simp)
    obtain ⟨n0, hl⟩ := hl
    refine ⟨n0, fun n hn => ?_⟩
    have := insertLoop_ok (env := env) (c := .hset) (hl n hn) []
    rw [hf] at this
    simp only
    rw [M.bind_ok this]
    simp [serUsize, Nat.add_assoc]
  | bset t =>
    cases v <;> simp only [HasTy] at hT
    rename_i vs
    simp only [BinExact, Holds] at hE
    simp only [serBin] at hA ⊢
    obtain ⟨h1, h2⟩ := At.append hA
    simp only [deBin]
    have hl := items_at vs (fun v hv => ih v (by have := Val.sizeOf_mem hv; simp; omega)) hT.1 hE.2 _ h2
    refine Returns.bind (Returns.const fun n => readUsize_at h1 (by unfold u64Max at hT; omega) hd) ?_
    simp only [serUsize, leBytes_length] at hl
    have hf := bset_fold hk [] vs hT.2.2 (by simp)
    obtain ⟨n0, hl⟩ := hl
    refine ⟨n0, fun n hn => ?_⟩
    have := insertLoop_ok (env := env) (c := .bset) (hl n hn) []
    rw [hf] at this
    simp only
    rw [M.bind_ok this]
    simp [serUsize, Nat.add_assoc]
  | array t len =>
    cases v <;> simp only [HasTy] at hT
    rename_i vs
    simp only [BinExact, Holds] at hE
    simp only [serBin] at hA ⊢
    simp only [deBin]
    obtain ⟨hT1, rfl⟩ := hT
    have hl := items_at vs (fun v hv => ih v (by have := Val.sizeOf_mem hv; simp; omega)) hT1 hE.2 _ hA
    exact Returns.bind hl (Returns.const fun n => by simp)
  | pair a b =>
    cases v <;> simp only [HasTy] at hT
    rename_i vs
    simp only [BinExact, Holds] at hE
    simp only [serBin] at hA ⊢
    simp only [deBin]
    have hl := deTys_at [a, b] vs hT (fun v hv => ih v (by have := Val.sizeOf_mem hv; simp; omega)) hE.2 o hA
    exact Returns.bind hl (Returns.const fun n => by simp)
  | triple a b c =>
    cases v <;> simp only [HasTy] at hT
    rename_i vs
    simp only [BinExact, Holds] at hE
    simp only [serBin] at hA ⊢
    simp only [deBin]
    have hl := deTys_at [a, b, c] vs hT (fun v hv => ih v (by have := Val.sizeOf_mem hv; simp; omega)) hE.2 o hA
    exact Returns.bind hl (Returns.const fun n => by simp)
  | quad a b c e =>
    cases v <;> simp only [HasTy] at hT
    rename_i vs
    simp only [BinExact, Holds] at hE
    simp only [serBin] at hA ⊢
    simp only [deBin]
    have hl := deTys_at [a, b, c, e] vs hT (fun v hv => ih v (by have := Val.sizeOf_mem hv; simp; omega)) hE.2 o hA
    exact Returns.bind hl (Returns.const fun n => by simp)
  | hmap k t =>
    cases v <;> simp only [HasTy] at hT
    rename_i vs
    simp only [BinExact, Holds] at hE
    simp only [serBin] at hA ⊢
    obtain ⟨h1, h2⟩ := At.append hA
    simp only [deBin]
    have hl := entries_at vs ih hT.1 hE.2 _ h2
    refine Returns.bind (Returns.const fun n => readUsize_at h1 (by unfold u64Max at hT; omega) hd) ?_
    refine Returns.bind (Returns.const (r := .ok () (o + 8)) fun n => by
      simp only [hashCap]; rw [if_neg (by rw [hT.2.2.1]; simp)]) ?_
    simp only [serUsize, leBytes_length] at hl
    have hf := hmap_fold hk [] vs (by intro v hv; simp at hv) hT.1.allEntries hT.2.2.2 (by simp)
    obtain ⟨n0, hl⟩ := hl
    refine ⟨n0, fun n hn => ?_⟩
    have := insertLoop_ok (env := env) (c := .hmap) (hl n hn) []
    rw [hf] at this
    simp only
    rw [M.bind_ok this]
    simp [serUsize, Nat.add_assoc]
  | bmap k t =>
    cases v <;> simp only [HasTy] at hT
    rename_i vs
    simp only [BinExact, Holds] at hE
    simp only [serBin] at hA ⊢
    obtain ⟨h1, h2⟩ := At.append hA
    simp only [deBin]
    have hl := entries_at vs ih hT.1 hE.2 _ h2
    refine Returns.bind (Returns.const fun n => readUsize_at h1 (by unfold u64Max at hT; omega) hd) ?_
    simp only [serUsize, leBytes_length] at hl
    have hf := bmap_fold hk [] vs (by intro v hv; simp at hv) hT.1.allEntries hT.2.2 (by simp)
    obtain ⟨n0, hl⟩ := hl
    refine ⟨n0, fun n hn => ?_⟩
    have := insertLoop_ok (env := env) (c := .bmap) (hl n hn) []
    rw [hf] at this
    simp only
    rw [M.bind_ok this]
    simp [serUsize, Nat.add_assoc]
  | box t =>
    cases v <;> simp only [HasTy] at hT
    rename_i v
    simp only [BinExact, Holds] at hE
    simp only [serBin] at hA ⊢
    simp only [deBin]
    exact Returns.bind (ih v (by simp) t hT hE.2 o hA) (Returns.const fun n => by simp)
  | named i =>
    cases v with
    | struct vs =>
      simp only [HasTy] at hT
      simp only [BinExact, Holds] at hE
      simp only [serBin] at hA ⊢
      simp only [deBin]
      cases hdef : env.defs[i]? with
      | none => simp [hdef] at hT
      | some df =>
        cases df with
        | struct fs cd nn =>
          simp only [hdef] at hT hE hA ⊢
          have hl := deFields_at true fs vs hT
            (fun v hv => ih v (by have := Val.sizeOf_mem hv; simp; omega)) hE.2 o hA
          exact Returns.bind hl (Returns.const fun n => by simp)
        | tuple ts tr =>
          simp only [hdef] at hT hE hA ⊢
          have hl := deTys_at ts vs hT
            (fun v hv => ih v (by have := Val.sizeOf_mem hv; simp; omega)) hE.2 o hA
          exact Returns.bind hl (Returns.const fun n => by simp)
        | enum vars => simp [hdef] at hT
    | variant j vs =>
      simp only [HasTy] at hT
      simp only [BinExact, Holds] at hE
      simp only [serBin] at hA ⊢
      simp only [deBin]
      cases hdef : env.defs[i]? with
      | none => simp [hdef] at hT
      | some df =>
        cases df with
        | struct fs cd nn => simp [hdef] at hT
        | tuple ts tr => simp [hdef] at hT
        | enum vars =>
          simp only [hdef] at hT hE hA ⊢
          cases hvar : vars[j]? with
          | none => simp [hvar] at hT
          | some var =>
            have hj : j < 256 ^ 2 := by
              have h1 := hs i vars hdef
              have h2 : j < vars.length := by
                rcases List.getElem?_eq_some_iff.1 hvar with ⟨h, _⟩; exact h
              omega
            have hjv := leVal_leBytes 2 j hj
            obtain ⟨nm, rn, sh⟩ := var
            cases sh with
            | unit =>
              simp only [hvar] at hT hE hA ⊢
              refine Returns.const fun n => ?_
              rw [M.bind_ok (readPrim_le hA hd)]
              simp only [hjv, hvar, deBinShape]
              rw [M.bind_ok (M.pure_apply _ _)]
              simp [hT]
            | tuple ts =>
              simp only [hvar] at hT hE hA ⊢
              obtain ⟨h1, h2⟩ := At.append hA
              have hl := deTys_at ts vs hT
                (fun v hv => ih v (by have := Val.sizeOf_mem hv; simp; omega)) hE.2 _ h2
              refine Returns.bind (Returns.const fun n => readPrim_le h1 hd) ?_
              simp only [hjv, hvar, deBinShape]
              simp only [leBytes_length] at hl
              refine Returns.bind hl (Returns.const fun n => by simp [Nat.add_assoc])
            | named fs =>
              simp only [hvar] at hT hE hA ⊢
              obtain ⟨h1, h2⟩ := At.append hA
              have hl := deFields_at false fs vs hT
                (fun v hv => ih v (by have := Val.sizeOf_mem hv; simp; omega)) hE.2 _ h2
              refine Returns.bind (Returns.const fun n => readPrim_le h1 hd) ?_
              simp only [hjv, hvar, deBinShape]
              simp only [leBytes_length] at hl
              refine Returns.bind hl (Returns.const fun n => by simp [Nat.add_assoc])
    | _ => simp [HasTy] at hT
  | proxied i =>
    cases v <;> simp only [HasTy] at hT
    rename_i og p
    simp only [BinExact, Holds] at hE
    simp only [serBin] at hA ⊢
    simp only [deBin]
    cases hp : env.proxies[i]? with
    | none => simp [hp] at hT
    | some px =>
      simp only [hp] at hT hE hA ⊢
      obtain ⟨h1, h2, h3⟩ := hT
      refine Returns.bind (ih p (by simp; omega) px.ty h1 hE.2 o hA) (Returns.const fun n => ?_)
      simp [h2, h3]

end NS
