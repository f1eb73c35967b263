import Verif.Lemmas.BinSays
/-! Bytes that stand for a value are read as that value (lemmas for C68). -/
namespace NS
variable {env : Env} {chk : Bool} {d : List Byte}

/-- Where the bytes `bs` stand, `f` reads them and returns `a`. -/
def Gives {α : Type} (d : List Byte) (f : Nat → BinM α) (bs : List Byte) (a : α) : Prop :=
  ∀ o, At d o bs → Returns (fun n => f n o) (.ok a (o + bs.length))

theorem Gives.succ {t : Ty} {bs : List Byte} {v : Val} (h : Gives d (fun n => deBin env chk d (n + 1) t) bs v) :
    Gives d (fun n => deBin env chk d n t) bs v := fun o ho => (h o ho).succ

theorem Gives.pure {α : Type} (a : α) : Gives d (fun _ => (Pure.pure a : BinM α)) [] a :=
  fun _ _ => .const fun _ => rfl

theorem Gives.bind {α β : Type} {x : Nat → BinM α} {f : Nat → α → BinM β} {bs cs : List Byte} {a : α} {b : β}
    (h : Gives d x bs a) (h' : Gives d (fun n => f n a) cs b) : Gives d (fun n => x n >>= f n) (bs ++ cs) b := by
  intro o ho
  obtain ⟨h1, h2⟩ := At.append ho
  have := Returns.bind (h o h1) (h' _ h2)
  simpa [Nat.add_assoc] using this

theorem Gives.map {α β : Type} {x : Nat → BinM α} {f : α → β} {bs : List Byte} {a : α} (h : Gives d x bs a) :
    Gives d (fun n => x n >>= fun a => Pure.pure (f a)) bs (f a) := by
  simpa using h.bind (f := fun _ a => Pure.pure (f a)) (.pure (f a))

theorem Gives.readPrim (hd : d.length ≤ isizeMax) (bs : List Byte) {len : Nat} (hl : bs.length = len) :
    Gives d (fun _ => readPrim chk d len) bs bs := fun o ho => .const fun _ => by
  have := readPrim_eq (chk := chk) (len := bs.length) ho.le hd
  rw [ho.take, hl] at this
  rw [hl]; exact this

theorem Gives.readUsize (hd : d.length ≤ isizeMax) (p : List Byte) (hl : p.length = 8) :
    Gives d (fun _ => readUsize chk d) p (littleEndian p) := fun o ho => .const fun _ => by
  have h8 := ho.le
  rw [hl] at h8
  show NS.readUsize chk d o = _
  rw [readUsize_eq h8 hd, ← hl, ho.take, littleEndian_eq]

theorem fromUtf8_std (s : List Char) : fromUtf8 (stdUtf8 s) = some s := by
  rw [← utf8_std]; exact fromUtf8_utf8 s

theorem Gives.deBinStr (hd : d.length ≤ isizeMax) {p : List Byte} {s : List Char} (hp : p.length = 8)
    (hl : littleEndian p = (stdUtf8 s).length) : Gives d (fun _ => deBinStr chk d) (p ++ stdUtf8 s) s := by
  rw [show (fun _ : Nat => NS.deBinStr chk d) = fun _ => NS.readUsize chk d >>= fun len => strBody chk len d from rfl]
  refine (Gives.readUsize hd p hp).bind ?_
  intro o ho
  refine .const fun _ => ?_
  show strBody chk (littleEndian p) d o = _
  rw [hl, strBody_eq ho.le hd, ho.take, fromUtf8_std]

theorem Gives.durBody (hd : d.length ≤ isizeMax) {s n : List Byte} (hs : s.length = 8) (hn : n.length = 4)
    (h1 : littleEndian n ≤ 1000000000) (h2 : littleEndian s + littleEndian n / 1000000000 ≤ u64Max) :
    Gives d (fun _ => deBinDur chk d) (s ++ n)
      (littleEndian s + littleEndian n / 1000000000, littleEndian n % 1000000000) := by
  refine (Gives.readPrim hd s hs).bind ?_
  rw [← List.append_nil n]
  refine (Gives.readPrim hd n hn).bind ?_
  intro o ho
  refine .const fun _ => ?_
  rw [List.append_nil]
  show (if leVal n > 1000000000 then (M.get >>= fun o => M.throw ⟨o, .range⟩ : BinM (Nat × Nat)) else durNew (leVal s) (leVal n)) o = _
  rw [← littleEndian_eq, ← littleEndian_eq, if_neg (by omega)]
  unfold durNew
  split
  · rename_i h
    rw [Nat.div_eq_of_lt h, Nat.mod_eq_of_lt h]; rfl
  · rfl

theorem Gives.repeatM {α : Type} {x : Nat → BinM α} (ps : List (List Byte × α)) (h : ∀ q ∈ ps, Gives d x q.1 q.2) :
    Gives d (fun n => repeatM (x n) ps.length) (ps.flatMap (·.1)) (ps.map (·.2)) := by
  induction ps with
  | nil => exact .pure _
  | cons q ps ih =>
    rw [List.flatMap_cons]
    exact (h q (by simp)).bind (f := fun n a => NS.repeatM (x n) ps.length >>= fun as => Pure.pure (a :: as))
      (ih fun q hq => h q (by simp [hq])).map

theorem Gives.insertLoop {x : Nat → BinM Val} (c : Coll) (ps : List (List Byte × Val)) (h : ∀ q ∈ ps, Gives d x q.1 q.2) :
    Gives d (fun n => insertLoop env c (x n) ps.length []) (ps.flatMap (·.1)) ((ps.map (·.2)).foldl (collInsert env c) []) := by
  intro o ho
  have := (Gives.repeatM ps h).map (f := fun vs => vs.foldl (collInsert env c) []) o ho
  simpa only [insertLoop_eq] using this

theorem Gives.deTys {f : Nat → Ty → BinM Val} (ps : List (Ty × List Byte × Val))
    (h : ∀ q ∈ ps, Gives d (fun n => f n q.1) q.2.1 q.2.2) :
    Gives d (fun n => deTys (f n) (ps.map (·.1))) (ps.flatMap (·.2.1)) (ps.map (·.2.2)) := by
  induction ps with
  | nil => exact .pure _
  | cons q ps ih =>
    rw [List.flatMap_cons]
    exact (h q (by simp)).bind (f := fun n a => NS.deTys (f n) (ps.map (·.1)) >>= fun as => Pure.pure (a :: as))
      (ih fun q hq => h q (by simp [hq])).map

theorem Gives.deFields {f : Nat → Ty → BinM Val} (us : Bool) (ps : List (Field × List Byte × Val))
    (h1 : ∀ q ∈ ps, us = true → q.1.skip = true → q.2 = ([], q.1.tyDefault))
    (h2 : ∀ q ∈ ps, ¬ (us = true ∧ q.1.skip = true) → Gives d (fun n => f n q.1.ty) q.2.1 q.2.2) :
    Gives d (fun n => deBinFields (f n) us (ps.map (·.1))) (ps.flatMap (·.2.1)) (ps.map (·.2.2)) := by
  induction ps with
  | nil => exact .pure _
  | cons q ps ih =>
    have e : ∀ n, deBinFields (f n) us ((q :: ps).map (·.1)) = ((if us = true ∧ q.1.skip = true then Pure.pure q.1.tyDefault else f n q.1.ty : BinM Val) >>= fun a =>
        deBinFields (f n) us (ps.map (·.1)) >>= fun as => Pure.pure (a :: as)) := by
      intro n; rw [List.map_cons, deBinFields]; split <;> rfl
    simp only [e]
    rw [List.flatMap_cons]
    refine Gives.bind (x := fun n => (if us = true ∧ q.1.skip = true then Pure.pure q.1.tyDefault else f n q.1.ty : BinM Val))
      (f := fun n a => deBinFields (f n) us (ps.map (·.1)) >>= fun as => Pure.pure (a :: as)) (a := q.2.2) ?_
      (ih (fun q hq => h1 q (by simp [hq])) (fun q hq => h2 q (by simp [hq]))).map
    by_cases hc : us = true ∧ q.1.skip = true
    · simp only [if_pos hc]
      rw [h1 q (by simp) hc.1 hc.2]
      exact .pure _
    · simp only [if_neg hc]
      exact h2 q (by simp) hc

/-- What the enum reader does after the variant number. -/
def enumRest (f : Ty → BinM Val) (vars : List Variant) (id : List Byte) : BinM Val :=
  match vars[leVal id]? with
  | .some var => do
    let vs ← deBinShape f var.shape
    pure (.variant (leVal id) vs)
  | .none => M.throw ⟨0, .unknownDiscriminant (leVal id)⟩

theorem Gives.enum (hd : d.length ≤ isizeMax) {i : Nat} {vars : List Variant} {p bs : List Byte} {var : Variant} {vs : List Val}
    (hdef : env.defs[i]? = some (.enum vars)) (hp : p.length = 2) (hv : vars[littleEndian p]? = some var)
    (h : Gives d (fun n => deBinShape (deBin env chk d n) var.shape) bs vs) :
    Gives d (fun n => deBin env chk d n (.named i)) (p ++ bs) (.variant (littleEndian p) vs) := by
  refine .succ ?_
  have e : ∀ n, deBin env chk d (n + 1) (.named i) = (NS.readPrim chk d 2 >>= enumRest (deBin env chk d n) vars) := by
    intro n; rw [deBin, hdef]; rfl
  simp only [e]
  refine (Gives.readPrim (chk := chk) hd p hp).bind (f := fun n => enumRest (deBin env chk d n) vars) ?_
  have e2 : ∀ n, enumRest (deBin env chk d n) vars p = (deBinShape (deBin env chk d n) var.shape >>= fun vs =>
      Pure.pure (Val.variant (littleEndian p) vs)) := by
    intro n
    rw [enumRest, ← littleEndian_eq, hv]
  simp only [e2]
  exact h.map

theorem BinSays.gives (hk : LawfulKeys env) (hd : d.length ≤ isizeMax) {t : Ty} {bs : List Byte} {v : Val}
    (h : BinSays env t bs v) : Gives d (fun n => deBin env chk d n t) bs v := by
  have prim : ∀ {bs : List Byte} {len : Nat} {t : Ty} {g : List Byte → Val}, bs.length = len →
      (∀ n, deBin env chk d (n + 1) t = (NS.readPrim chk d len >>= fun bs => Pure.pure (g bs))) →
      Gives d (fun n => deBin env chk d n t) bs (g bs) := by
    intro bs len t g hl e
    refine .succ ?_
    simp only [e]
    exact (Gives.readPrim hd bs hl).map
  have sized : ∀ {t : Ty} {p bs : List Byte} {v : Val} {f : Nat → Nat → BinM Val}, p.length = 8 →
      (∀ n, deBin env chk d (n + 1) t = (NS.readUsize chk d >>= f n)) → Gives d (fun n => f n (littleEndian p)) bs v →
      Gives d (fun n => deBin env chk d n t) (p ++ bs) v := by
    intro t p bs v f hp e h
    refine .succ ?_
    simp only [e]
    exact (Gives.readUsize hd p hp).bind h
  have capped : ∀ {c : BinM Unit} {x : Nat → BinM Val} {bs : List Byte} {v : Val}, (∀ o, c o = .ok () o) →
      Gives d x bs v → Gives d (fun n => c >>= fun _ => x n) bs v := by
    intro c x bs v hc h
    have h1 : Gives d (fun _ => c) [] () := fun o _ => .const fun _ => hc o
    simpa using h1.bind (f := fun n _ => x n) h
  have entries : ∀ {k t : Ty} (ps : List ((List Byte × Val) × (List Byte × Val))),
      (∀ q ∈ ps, Gives d (fun n => deBin env chk d n k) q.1.1 q.1.2) → (∀ q ∈ ps, Gives d (fun n => deBin env chk d n t) q.2.1 q.2.2) →
      ∀ q ∈ ps.map (fun q => (q.1.1 ++ q.2.1, Val.entry q.1.2 q.2.2)),
        Gives d (fun n => entryM (deBin env chk d n k) (deBin env chk d n t)) q.1 q.2 := by
    intro k t ps h1 h2 q hq
    obtain ⟨r, hr, rfl⟩ := List.mem_map.1 hq
    exact (h1 r hr).bind (f := fun n a => deBin env chk d n t >>= fun b => Pure.pure (Val.entry a b)) (h2 r hr).map
  induction h with
  | unit => exact .succ (.pure _)
  | @bool b =>
    have : (decide (b ≠ 0)) = (leVal [b] != 0) := by
      rw [Bool.eq_iff_iff]; simp [leVal, ← UInt8.toNat_inj]
    rw [this]
    exact prim (g := fun bs => .bool (leVal bs != 0)) rfl fun _ => rfl
  | @int k bs i h1 h2 h3 =>
    have hv := twos_unique k _ i h2 h3
    by_cases hu : k = .usize
    · subst hu
      have hl := littleEndian_lt bs
      rw [show bs.length = 8 from h1] at hl
      rw [bytesUsize_spec _ hl] at hv
      subst hv
      exact .succ (Gives.readUsize hd bs h1).map
    · rw [littleEndian_eq] at hv
      subst hv
      refine prim (g := fun bs => .int (ofTwos k.signed k.bytes (leVal bs))) h1 fun n => ?_
      cases k <;> first | rfl | exact absurd rfl hu
  | @f32 bs x h1 h2 =>
    have : x = BitVec.ofNat 32 (leVal bs) := by rw [← littleEndian_eq, ← h2]; simp
    subst this
    exact prim (g := fun bs => .f32 (BitVec.ofNat 32 (leVal bs))) h1 fun _ => rfl
  | @f64 bs x h1 h2 =>
    have : x = BitVec.ofNat 64 (leVal bs) := by rw [← littleEndian_eq, ← h2]; simp
    subst this
    exact prim (g := fun bs => .f64 (BitVec.ofNat 64 (leVal bs))) h1 fun _ => rfl
  | str h1 h2 => exact .succ (Gives.deBinStr hd h1 h2).map
  | dur h1 h2 h3 h4 => exact .succ ((Gives.durBody (chk := chk) hd h1 h2 h3 h4).map (f := fun r : Nat × Nat => Val.dur r.1 r.2))
  | @epoch b h =>
    refine .succ ?_
    refine (Gives.readPrim hd [b] (len := 1) rfl).bind (cs := []) (f := fun _ tag => if leVal tag = 1 then
      (NS.deBinDur chk d >>= fun r => epochPlus r.1 r.2) else Pure.pure (.time 0 0)) ?_
    have : ¬ leVal [b] = 1 := by simpa [leVal] using fun hb => h ((toNat_one b).1 hb)
    simp only [if_neg this]
    exact .pure _
  | @time s n h1 h2 h3 h4 =>
    refine .succ ?_
    refine (Gives.readPrim hd [1] (len := 1) rfl).bind (cs := s ++ n) (f := fun _ tag => if leVal tag = 1 then
      (NS.deBinDur chk d >>= fun r => epochPlus r.1 r.2) else Pure.pure (.time 0 0)) ?_
    have : leVal [1] = 1 := rfl
    simp only [if_pos this]
    have := (Gives.durBody (chk := chk) hd h1 h2 h3 (by unfold u64Max; omega)).bind (cs := []) (f := fun _ r => epochPlus r.1 r.2)
      (b := .time (littleEndian s + littleEndian n / 1000000000 : Nat) (littleEndian n % 1000000000)) (fun o _ => .const fun _ => by
        simp only [epochPlus, if_pos h4]; rfl)
    simpa using this
  | @none t b h =>
    refine .succ ?_
    refine (Gives.readPrim hd [b] (len := 1) rfl).bind (cs := []) (f := fun n tag => if leVal tag = 1 then
      (deBin env chk d n t >>= fun v => Pure.pure (Val.some v)) else Pure.pure Val.none) ?_
    have : ¬ leVal [b] = 1 := by simpa [leVal] using fun hb => h ((toNat_one b).1 hb)
    simp only [if_neg this]
    exact .pure _
  | @some t bs v h ih =>
    refine .succ ?_
    refine (Gives.readPrim hd [1] (len := 1) rfl).bind (cs := bs) (f := fun n tag => if leVal tag = 1 then
      (deBin env chk d n t >>= fun v => Pure.pure (Val.some v)) else Pure.pure Val.none) ?_
    have : leVal [1] = 1 := rfl
    simp only [if_pos this]
    exact ih.map
  | @vec t p ps h1 h2 h3 _ ih =>
    refine sized (f := fun n len => vecCap env t len >>= fun _ => NS.repeatM (deBin env chk d n t) len >>= fun vs => Pure.pure (.seq vs)) h1 (fun _ => rfl) ?_
    rw [h2]
    exact capped (fun o => by simp only [vecCap, if_pos h3]) (Gives.repeatM ps ih).map
  | @linked t p ps h1 h2 _ ih =>
    refine sized (f := fun n len => NS.repeatM (deBin env chk d n t) len >>= fun vs => Pure.pure (.seq vs)) h1 (fun _ => rfl) ?_
    rw [h2]
    exact (Gives.repeatM ps ih).map
  | @hset t p ps h1 h2 h3 _ ih =>
    refine sized (f := fun n len => hashCap env (env.memSize t) len >>= fun _ => NS.insertLoop env .hset (deBin env chk d n t) len [] >>= fun vs => Pure.pure (.seq vs)) h1 (fun _ => rfl) ?_
    rw [h2, ← hset_fold_firsts hk]
    exact capped (fun o => by simp [hashCap, h3]) (Gives.insertLoop .hset ps ih).map
  | @bset t p r ps h1 h2 _ h4 ih =>
    refine sized (f := fun n len => NS.insertLoop env .bset (deBin env chk d n t) len [] >>= fun vs => Pure.pure (.seq vs)) h1 (fun _ => rfl) ?_
    rw [h2, ← bset_fold_unique hk h4]
    exact (Gives.insertLoop .bset ps ih).map
  | @array t n ps h1 _ ih =>
    subst h1
    exact .succ (Gives.repeatM ps ih).map
  | @pair a b ps h1 _ ih =>
    refine .succ ?_
    have := (Gives.deTys (f := deBin env chk d) ps ih).map (f := Val.seq)
    rw [h1] at this
    exact this
  | @triple a b c ps h1 _ ih =>
    refine .succ ?_
    have := (Gives.deTys (f := deBin env chk d) ps ih).map (f := Val.seq)
    rw [h1] at this
    exact this
  | @quad a b c e ps h1 _ ih =>
    refine .succ ?_
    have := (Gives.deTys (f := deBin env chk d) ps ih).map (f := Val.seq)
    rw [h1] at this
    exact this
  | @hmap k t p r ps h1 h2 h3 _ _ h6 h7 ih1 ih2 =>
    refine sized (f := fun n len => hashCap env (env.memSize k + env.memSize t) len >>= fun _ =>
      NS.insertLoop env .hmap (entryM (deBin env chk d n k) (deBin env chk d n t)) len [] >>= fun vs => Pure.pure (.seq vs)) h1 (fun _ => rfl) ?_
    have hE : AllEntries (ps.map fun p => Val.entry p.1.2 p.2.2) := by
      intro w hw
      obtain ⟨p, _, rfl⟩ := List.mem_map.1 hw
      exact ⟨_, _, rfl⟩
    have := (Gives.insertLoop (env := env) .hmap _ (entries ps ih1 ih2)).map (f := Val.seq)
    rw [List.map_map, List.flatMap_map, List.length_map] at this
    rw [← hmap_fold_unique hk hE h6 (by rw [h7, List.map_map]; rfl), h2]
    exact capped (fun o => by simp [hashCap, h3]) this
  | @bmap k t p r ps h1 h2 _ _ h6 h7 ih1 ih2 =>
    refine sized (f := fun n len =>
      NS.insertLoop env .bmap (entryM (deBin env chk d n k) (deBin env chk d n t)) len [] >>= fun vs => Pure.pure (.seq vs)) h1 (fun _ => rfl) ?_
    have hE : AllEntries (ps.map fun p => Val.entry p.1.2 p.2.2) := by
      intro w hw
      obtain ⟨p, _, rfl⟩ := List.mem_map.1 hw
      exact ⟨_, _, rfl⟩
    have := (Gives.insertLoop (env := env) .bmap _ (entries ps ih1 ih2)).map (f := Val.seq)
    rw [List.map_map, List.flatMap_map, List.length_map] at this
    rw [← bmap_fold_unique hk hE h6 h7, h2]
    exact this
  | box _ ih => exact .succ ih.map
  | @struct i cd nul ps hdef h2 _ ih =>
    refine .succ ?_
    have := (Gives.deFields (f := deBin env chk d) true ps (fun q hq _ => h2 q hq) (fun q hq hs => ih q hq (by
      simpa using hs))).map (f := Val.struct)
    simp only [deBin, hdef]
    exact this
  | @tupleStruct i tr ps hdef _ ih =>
    refine .succ ?_
    simp only [deBin, hdef]
    exact (Gives.deTys (f := deBin env chk d) ps ih).map
  | @variant i vars p var hdef hp hv hs =>
    have := Gives.enum (chk := chk) (bs := []) (vs := []) hd hdef hp hv (by rw [hs]; exact .pure _)
    rwa [List.append_nil] at this
  | @tupleVariant i vars p var ps hdef hp hv hs _ ih =>
    exact .enum hd hdef hp hv (by rw [hs]; exact Gives.deTys (f := deBin env chk d) ps ih)
  | @structVariant i vars p var ps hdef hp hv hs _ ih =>
    exact .enum hd hdef hp hv (by
      rw [hs]; exact Gives.deFields (f := deBin env chk d) false ps (by simp) (fun q hq _ => ih q hq))
  | @proxied i px bs p hdef _ ih =>
    refine .succ ?_
    simp only [deBin, hdef]
    exact ih.map (f := fun p => Val.prox (px.back p) (px.into (px.back p)))

end NS
