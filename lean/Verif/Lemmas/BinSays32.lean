import Verif.Lemmas.Bin32
/-! Reading bytes on a 32-bit target is exact (lemmas for C96). -/
namespace NS.W32
variable {env : Env} {chk : Bool} {d : List Byte}


theorem Takes.readPrim (len : Nat) (hl : len < 2 ^ 31) (hd : d.length ≤ isizeMax) :
    Takes d (readPrim chk d len) (fun bs a => a = bs ∧ bs.length = len) := by
  intro o a o' ho e
  obtain ⟨rfl, h2, rfl⟩ := readPrim_ok hl hd e
  have : ((d.drop o).take len).length = len := by simp; omega
  exact ⟨_, .sub h2, by rw [this], rfl, this⟩

theorem Takes.readUsize (hd : d.length ≤ isizeMax) :
    Takes d (readUsize chk d) (fun bs a => a = littleEndian bs % 2 ^ 32 ∧ bs.length = 8) := by
  intro o a o' ho e
  obtain ⟨rfl, h2, rfl⟩ := readUsize_ok hd e
  have : ((d.drop o).take 8).length = 8 := by simp; omega
  exact ⟨_, .sub h2, by rw [this], by rw [littleEndian_eq], this⟩

theorem Takes.deBinStr (hd : d.length ≤ isizeMax) :
    Takes d (deBinStr chk d) (fun bs s => ∃ p, bs = p ++ stdUtf8 s ∧ p.length = 8 ∧ littleEndian p % 2 ^ 32 = (stdUtf8 s).length) := by
  rw [deBinStr_eq_body]
  refine (Takes.readUsize hd).bind ?_
  rintro p len ⟨rfl, hp⟩ o s o' ho e
  obtain ⟨rfl, h2, h3⟩ := strBody_ok (Nat.mod_lt _ (by decide)) ho hd e
  have hl : ((d.drop o).take (littleEndian p % 2 ^ 32)).length = littleEndian p % 2 ^ 32 := by simp; omega
  have hu := utf8_fromUtf8 _ _ h3
  rw [utf8_std] at hu
  refine ⟨_, .sub h2, by rw [hl], p, by rw [hu], hp, ?_⟩
  rw [hu, hl]

theorem Takes.deBinDur (hd : d.length ≤ isizeMax) :
    Takes d (deBinDur chk d) (fun bs r => ∃ s n, bs = s ++ n ∧ s.length = 8 ∧ n.length = 4 ∧ littleEndian n ≤ 1000000000 ∧
      littleEndian s + littleEndian n / 1000000000 ≤ u64Max ∧
      r = (littleEndian s + littleEndian n / 1000000000, littleEndian n % 1000000000)) := by
  refine (Takes.readPrim 8 (by decide) hd).bind ?_
  rintro _ s ⟨rfl, hs⟩
  refine (Takes.readPrim 4 (by decide) hd).bind ?_
  rintro _ n ⟨rfl, hn⟩ o r o' ho e
  replace e : (if leVal n > 1000000000 then (M.get >>= fun o => M.throw ⟨o, .range⟩ : BinM (Nat × Nat)) else durNew (leVal s) (leVal n)) o = .ok r o' := e
  by_cases h : leVal n > 1000000000
  · rw [if_pos h] at e; cases e
  · rw [if_neg h] at e
    have hs' := littleEndian_lt s
    rw [hs] at hs'
    rw [← littleEndian_eq, ← littleEndian_eq] at e
    rw [← littleEndian_eq] at h
    unfold durNew at e
    split at e
    · cases e
      exact ⟨[], .nil ho, rfl, s, n, by simp, hs, hn, by omega, by unfold u64Max; omega, by
        rw [Nat.div_eq_of_lt (by assumption), Nat.mod_eq_of_lt (by assumption)]; rfl⟩
    · split at e
      · cases e
        exact ⟨[], .nil ho, rfl, s, n, by simp, hs, hn, by omega, by assumption, rfl⟩
      · cases e

theorem Takes.deBin (hk : LawfulKeys env) (hd : d.length ≤ isizeMax) : ∀ (n : Nat) (t : Ty),
    Takes d (deBin env chk d n t) (BinSays env t) := by
  intro n
  induction n with
  | zero => intro t o a o' ho e; cases e
  | succ n ih =>
    intro t
    have len : ∀ {β : Type} {f : Nat → BinM β} {Q : List Byte → β → Prop},
        (∀ p, p.length = 8 → Takes d (f (littleEndian p % 2 ^ 32)) (fun bs b => Q (p ++ bs) b)) →
        Takes d (W32.readUsize chk d >>= f) Q := fun h =>
      (Takes.readUsize hd).bind fun p a hp => by rw [hp.1]; exact h p hp.2
    cases t with
    | unit => exact .pure .unit
    | bool =>
      refine (Takes.readPrim 1 (by decide) hd).map ?_
      rintro _ bs ⟨rfl, h⟩
      obtain ⟨b, rfl, hb⟩ := one_byte h
      have : (leVal [b] != 0) = decide (b ≠ 0) := by
        rw [hb, Bool.eq_iff_iff]; simp [← UInt8.toNat_inj]
      rw [this]; exact .bool
    | int k =>
      by_cases hu : k = .usize
      · subst hu
        refine (Takes.readUsize hd).map ?_
        rintro bs _ ⟨rfl, h⟩
        exact .usize h
      · have e : W32.deBin env chk d (n + 1) (.int k) = (W32.readPrim chk d k.bytes >>= fun bs =>
            Pure.pure (.int (ofTwos k.signed k.bytes (leVal bs)))) := by
          cases k <;> first | rfl | exact absurd rfl hu
        rw [e]
        refine (Takes.readPrim _ (by cases k <;> decide) hd).map ?_
        rintro _ bs ⟨rfl, h⟩
        have hl := littleEndian_lt bs
        rw [h, littleEndian_eq] at hl
        exact .int hu h (ofTwos_inRange k _ hl) (by rw [littleEndian_eq]; exact twos_mod k _ hl)
    | f32 =>
      refine (Takes.readPrim 4 (by decide) hd).map ?_
      rintro _ bs ⟨rfl, h⟩
      have hl := littleEndian_lt bs
      rw [h] at hl
      exact .f32 h (by rw [← littleEndian_eq, BitVec.toNat_ofNat]; omega)
    | f64 =>
      refine (Takes.readPrim 8 (by decide) hd).map ?_
      rintro _ bs ⟨rfl, h⟩
      have hl := littleEndian_lt bs
      rw [h] at hl
      exact .f64 h (by rw [← littleEndian_eq, BitVec.toNat_ofNat]; omega)
    | str =>
      refine (Takes.deBinStr hd).map ?_
      rintro bs s ⟨p, rfl, h1, h2⟩
      exact .str h1 h2
    | dur =>
      refine (Takes.deBinDur hd).map ?_
      rintro bs _ ⟨s, n, rfl, h1, h2, h3, h4, rfl⟩
      exact .dur h1 h2 h3 h4
    | time =>
      refine (Takes.readPrim 1 (by decide) hd).bind ?_
      rintro _ bs ⟨rfl, h⟩
      obtain ⟨b, rfl, hb⟩ := one_byte h
      by_cases h1 : leVal [b] = 1
      · rw [if_pos h1]
        obtain rfl := (toNat_one b).1 (hb ▸ h1)
        refine (Takes.deBinDur hd).bind ?_
        rintro bs _ ⟨s, n, rfl, g1, g2, g3, g4, rfl⟩ o v o' ho e
        replace e : epochPlus (littleEndian s + littleEndian n / 1000000000) (littleEndian n % 1000000000) o = .ok v o' := e
        unfold epochPlus at e
        split at e
        · cases e
          refine ⟨[], .nil ho, rfl, ?_⟩
          have := BinSays.time (env := env) g1 g2 g3 (by assumption)
          simpa using this
        · cases e
      · rw [if_neg h1]
        exact .pure (.epoch fun hb' => h1 (by rw [hb, hb']; rfl))
    | option t =>
      refine (Takes.readPrim 1 (by decide) hd).bind ?_
      rintro _ bs ⟨rfl, h⟩
      obtain ⟨b, rfl, hb⟩ := one_byte h
      by_cases h1 : leVal [b] = 1
      · rw [if_pos h1]
        obtain rfl := (toNat_one b).1 (hb ▸ h1)
        exact (ih t).map fun bs v hv => .some hv
      · rw [if_neg h1]
        exact .pure (.none fun hb' => h1 (by rw [hb, hb']; rfl))
    | vec t =>
      refine len fun p hp => ?_
      intro o v o' ho e
      obtain ⟨_, s, e1, e2⟩ := M.bind_eq_ok.1 e
      unfold vecCap at e1
      split at e1
      · rename_i hc
        cases e1
        refine ((ih t).repeatM (littleEndian p % 2 ^ 32)).map (f := Val.seq) ?_ o v o' ho e2
        rintro bs _ ⟨ps, q1, q2, rfl, rfl⟩
        rw [← q1] at hc
        exact .vec ps hp q1.symm hc q2
      · cases e1
    | linked t =>
      refine len fun p hp => ?_
      refine ((ih t).repeatM (littleEndian p % 2 ^ 32)).map (f := Val.seq) ?_
      rintro bs _ ⟨ps, q1, q2, rfl, rfl⟩
      exact .linked ps hp q1.symm q2
    | hset t =>
      refine len fun p hp => ?_
      intro o v o' ho e
      obtain ⟨_, s, e1, e2⟩ := M.bind_eq_ok.1 e
      unfold hashCap at e1
      split at e1
      · cases e1
      · rename_i hc
        cases e1
        refine ((ih t).insertLoop .hset (littleEndian p % 2 ^ 32)).map (f := Val.seq) ?_ o v o' ho e2
        rintro bs _ ⟨ps, q1, q2, rfl, rfl⟩
        rw [← q1] at hc
        rw [hset_fold_firsts hk]
        exact .hset ps hp q1.symm (by simpa using hc) q2
    | bset t =>
      refine len fun p hp => ?_
      refine ((ih t).insertLoop .bset (littleEndian p % 2 ^ 32)).map (f := Val.seq) ?_
      rintro bs _ ⟨ps, q1, q2, rfl, rfl⟩
      refine .bset ps hp q1.symm q2 ⟨bset_fold_pairwise hk _ _ (by simp), fun x => ?_⟩
      rw [bset_fold_mem hk]; simp
    | array t m =>
      refine ((ih t).repeatM m).map (f := Val.seq) ?_
      rintro bs _ ⟨ps, q1, q2, rfl, rfl⟩
      exact .array ps q1 q2
    | pair a b =>
      refine (Takes.deTys ih [a, b]).map (f := Val.seq) ?_
      rintro bs _ ⟨ps, q1, q2, rfl, rfl⟩
      exact .pair ps q1 q2
    | triple a b c =>
      refine (Takes.deTys ih [a, b, c]).map (f := Val.seq) ?_
      rintro bs _ ⟨ps, q1, q2, rfl, rfl⟩
      exact .triple ps q1 q2
    | quad a b c e =>
      refine (Takes.deTys ih [a, b, c, e]).map (f := Val.seq) ?_
      rintro bs _ ⟨ps, q1, q2, rfl, rfl⟩
      exact .quad ps q1 q2
    | hmap k t =>
      refine len fun p hp => ?_
      intro o v o' ho e
      obtain ⟨_, s, e1, e2⟩ := M.bind_eq_ok.1 e
      unfold hashCap at e1
      split at e1
      · cases e1
      · rename_i hc
        cases e1
        have he : Takes d (entryM (W32.deBin env chk d n k) (W32.deBin env chk d n t)) (fun bs v => ∃ q : (List Byte × Val) × (List Byte × Val),
            BinSays env k q.1.1 q.1.2 ∧ BinSays env t q.2.1 q.2.2 ∧ v = .entry q.1.2 q.2.2 ∧ bs = q.1.1 ++ q.2.1) :=
          (ih k).bind fun bs a ha => (ih t).map fun cs b hb => ⟨((bs, a), (cs, b)), ha, hb, rfl, rfl⟩
        refine (he.insertLoop .hmap (littleEndian p % 2 ^ 32)).map (f := Val.seq) ?_ o v o' ho e2
        rintro bs _ ⟨ps, q1, q2, rfl, rfl⟩
        obtain ⟨qs, w1, w2, w3, w4⟩ : ∃ qs : List ((List Byte × Val) × (List Byte × Val)), qs.length = ps.length ∧
            (∀ q ∈ qs, BinSays env k q.1.1 q.1.2 ∧ BinSays env t q.2.1 q.2.2) ∧
            (ps.map (·.2)) = qs.map (fun q => Val.entry q.1.2 q.2.2) ∧ ps.flatMap (·.1) = qs.flatMap fun q => q.1.1 ++ q.2.1 := by
          clear hc q1 e2 e
          induction ps with
          | nil => exact ⟨[], rfl, by simp, rfl, rfl⟩
          | cons r ps ihp =>
            obtain ⟨qs, w1, w2, w3, w4⟩ := ihp fun q hq => q2 q (by simp [hq])
            obtain ⟨q, z1, z2, z3, z4⟩ := q2 r (by simp)
            exact ⟨q :: qs, by simp [w1], List.forall_mem_cons.2 ⟨⟨z1, z2⟩, w2⟩, by simp [w3, z3], by simp [w4, z4]⟩
        rw [w3, w4]
        have hE : AllEntries (qs.map fun p => Val.entry p.1.2 p.2.2) := by
          intro w hw
          obtain ⟨p, _, rfl⟩ := List.mem_map.1 hw
          exact ⟨_, _, rfl⟩
        refine .hmap qs hp (by rw [w1, q1]) (by rw [w1, q1]; simpa using hc) (fun q hq => (w2 q hq).1) (fun q hq => (w2 q hq).2)
          ⟨(hmap_fold_pairwise hk _ [] hE (by simp [AllEntries]) (by simp)).1, fun q => ?_⟩ ?_
        · rw [hmap_fold_get hk _ _ _ hE (by simp [AllEntries])]
          cases lastVal q (qs.map fun p => Val.entry p.1.2 p.2.2) <;> rfl
        · rw [hmap_fold_keys _ _ hE (by simp [AllEntries]), List.map_nil, hset_fold_firsts hk, List.map_map]
          rfl
    | bmap k t =>
      refine len fun p hp => ?_
      have he : Takes d (entryM (W32.deBin env chk d n k) (W32.deBin env chk d n t)) (fun bs v => ∃ q : (List Byte × Val) × (List Byte × Val),
          BinSays env k q.1.1 q.1.2 ∧ BinSays env t q.2.1 q.2.2 ∧ v = .entry q.1.2 q.2.2 ∧ bs = q.1.1 ++ q.2.1) :=
        (ih k).bind fun bs a ha => (ih t).map fun cs b hb => ⟨((bs, a), (cs, b)), ha, hb, rfl, rfl⟩
      refine (he.insertLoop .bmap (littleEndian p % 2 ^ 32)).map (f := Val.seq) ?_
      rintro bs _ ⟨ps, q1, q2, rfl, rfl⟩
      obtain ⟨qs, w1, w2, w3, w4⟩ : ∃ qs : List ((List Byte × Val) × (List Byte × Val)), qs.length = ps.length ∧
          (∀ q ∈ qs, BinSays env k q.1.1 q.1.2 ∧ BinSays env t q.2.1 q.2.2) ∧
          (ps.map (·.2)) = qs.map (fun q => Val.entry q.1.2 q.2.2) ∧ ps.flatMap (·.1) = qs.flatMap fun q => q.1.1 ++ q.2.1 := by
        clear q1
        induction ps with
        | nil => exact ⟨[], rfl, by simp, rfl, rfl⟩
        | cons r ps ihp =>
          obtain ⟨qs, w1, w2, w3, w4⟩ := ihp fun q hq => q2 q (by simp [hq])
          obtain ⟨q, z1, z2, z3, z4⟩ := q2 r (by simp)
          exact ⟨q :: qs, by simp [w1], List.forall_mem_cons.2 ⟨⟨z1, z2⟩, w2⟩, by simp [w3, z3], by simp [w4, z4]⟩
      rw [w3, w4]
      have hE : AllEntries (qs.map fun p => Val.entry p.1.2 p.2.2) := by
        intro w hw
        obtain ⟨p, _, rfl⟩ := List.mem_map.1 hw
        exact ⟨_, _, rfl⟩
      have hps := bmap_fold_pairwise hk (qs.map fun p => Val.entry p.1.2 p.2.2) [] hE (by simp [AllEntries]) (by simp)
      refine .bmap qs hp (by rw [w1, q1]) (fun q hq => (w2 q hq).1) (fun q hq => (w2 q hq).2) ⟨hps.1, fun q => ?_⟩ hps.2
      rw [bmap_fold_get hk _ _ _ hE (by simp [AllEntries])]
      cases lastVal q (qs.map fun p => Val.entry p.1.2 p.2.2) <;> rfl
    | box t => exact (ih t).map fun bs v hv => .box hv
    | named i =>
      rw [W32.deBin]
      cases hdef : env.defs[i]? with
      | none => intro o v o' ho e; cases e
      | some df =>
        cases df with
        | struct fs cd nul =>
          refine (Takes.deFields ih true fs).map (f := Val.struct) ?_
          rintro bs _ ⟨ps, rfl, q2, q3, rfl, rfl⟩
          exact .struct ps hdef (fun q hq => q2 q hq rfl) (fun q hq hs => q3 q hq (by simp [hs]))
        | tuple ts tr =>
          refine (Takes.deTys ih ts).map (f := Val.struct) ?_
          rintro bs _ ⟨ps, rfl, q2, rfl, rfl⟩
          exact .tupleStruct ps hdef q2
        | enum vars =>
          refine (Takes.readPrim 2 (by decide) hd).bind ?_
          rintro _ p ⟨rfl, hp⟩
          rw [← littleEndian_eq]
          cases hv : vars[littleEndian p]? with
          | none => intro o v o' ho e; cases e
          | some var =>
            show Takes d (deBinShape (W32.deBin env chk d n) var.shape >>= fun vs => Pure.pure (Val.variant (littleEndian p) vs)) _
            cases hsh : var.shape with
            | unit =>
              refine Takes.map (P := fun bs vs => bs = [] ∧ vs = []) (.pure ⟨rfl, rfl⟩) ?_
              rintro _ _ ⟨rfl, rfl⟩
              simpa using BinSays.variant hdef hp hv hsh
            | tuple ts =>
              refine (Takes.deTys ih ts).map ?_
              rintro bs _ ⟨ps, rfl, q2, rfl, rfl⟩
              exact .tupleVariant ps hdef hp hv hsh q2
            | named fs =>
              refine (Takes.deFields ih false fs).map ?_
              rintro bs _ ⟨ps, rfl, q2, q3, rfl, rfl⟩
              exact .structVariant ps hdef hp hv hsh (fun q hq => q3 q hq (by simp))
    | proxied i =>
      rw [W32.deBin]
      cases hdef : env.proxies[i]? with
      | none => intro o v o' ho e; cases e
      | some px => exact (ih px.ty).map fun bs v hv => .proxied hdef hv

theorem gives_succ {t : Ty} {bs : List Byte} {v : Val} (h : Gives d (fun n => deBin env chk d (n + 1) t) bs v) :
    Gives d (fun n => deBin env chk d n t) bs v := fun o ho => (h o ho).succ

theorem Gives.readPrim (hd : d.length ≤ isizeMax) (bs : List Byte) {len : Nat} (hl : bs.length = len) :
    Gives d (fun _ => readPrim chk d len) bs bs := fun o ho => .const fun _ => by
  have := readPrim_eq (chk := chk) (len := bs.length) ho.le hd
  rw [ho.take, hl] at this
  rw [hl]; exact this

theorem Gives.readUsize (hd : d.length ≤ isizeMax) (p : List Byte) (hl : p.length = 8) :
    Gives d (fun _ => readUsize chk d) p (littleEndian p % 2 ^ 32) := fun o ho => .const fun _ => by
  have h8 := ho.le
  rw [hl] at h8
  show W32.readUsize chk d o = _
  rw [readUsize_eq h8 hd, ← hl, ho.take, littleEndian_eq]

theorem Gives.deBinStr (hd : d.length ≤ isizeMax) {p : List Byte} {s : List Char} (hp : p.length = 8)
    (hl : littleEndian p % 2 ^ 32 = (stdUtf8 s).length) : Gives d (fun _ => deBinStr chk d) (p ++ stdUtf8 s) s := by
  rw [show (fun _ : Nat => W32.deBinStr chk d) = fun _ => W32.readUsize chk d >>= fun len => strBody chk len d from rfl]
  refine (Gives.readUsize hd p hp).bind ?_
  intro o ho
  refine .const fun _ => ?_
  show strBody chk (littleEndian p % 2 ^ 32) d o = _
  rw [hl, strBody_eq ho.le hd, ho.take, fromUtf8_std]

theorem Gives.durBody (hd : d.length ≤ isizeMax) {s n : List Byte} (hs : s.length = 8) (hn : n.length = 4)
    (h1 : littleEndian n ≤ 1000000000) (h2 : littleEndian s + littleEndian n / 1000000000 ≤ u64Max) :
    Gives d (fun _ => deBinDur chk d) (s ++ n)
      (littleEndian s + littleEndian n / 1000000000, littleEndian n % 1000000000) := by
  refine (Gives.readPrim hd s hs).bind ?_
  rw [← List.append_nil n]
  refine (Gives.readPrim hd n hn).bind ?_
  intro o ho
  refine .const fun _ => ?_
  rw [List.append_nil]
  show (if leVal n > 1000000000 then (M.get >>= fun o => M.throw ⟨o, .range⟩ : BinM (Nat × Nat)) else durNew (leVal s) (leVal n)) o = _
  rw [← littleEndian_eq, ← littleEndian_eq, if_neg (by omega)]
  unfold durNew
  split
  · rename_i h
    rw [Nat.div_eq_of_lt h, Nat.mod_eq_of_lt h]; rfl
  · rfl

theorem gives_enum (hd : d.length ≤ isizeMax) {i : Nat} {vars : List Variant} {p bs : List Byte} {var : Variant} {vs : List Val}
    (hdef : env.defs[i]? = some (.enum vars)) (hp : p.length = 2) (hv : vars[littleEndian p]? = some var)
    (h : Gives d (fun n => deBinShape (deBin env chk d n) var.shape) bs vs) :
    Gives d (fun n => deBin env chk d n (.named i)) (p ++ bs) (.variant (littleEndian p) vs) := by
  refine gives_succ ?_
  have e : ∀ n, deBin env chk d (n + 1) (.named i) = (W32.readPrim chk d 2 >>= enumRest (deBin env chk d n) vars) := by
    intro n; rw [deBin, hdef]; rfl
  simp only [e]
  refine (Gives.readPrim (chk := chk) hd p hp).bind (f := fun n => enumRest (deBin env chk d n) vars) ?_
  have e2 : ∀ n, enumRest (deBin env chk d n) vars p = (deBinShape (deBin env chk d n) var.shape >>= fun vs =>
      Pure.pure (Val.variant (littleEndian p) vs)) := by
    intro n
    rw [enumRest, ← littleEndian_eq, hv]
  simp only [e2]
  exact h.map

theorem BinSays.gives (hk : LawfulKeys env) (hd : d.length ≤ isizeMax) {t : Ty} {bs : List Byte} {v : Val}
    (h : BinSays env t bs v) : Gives d (fun n => deBin env chk d n t) bs v := by
  have prim : ∀ {bs : List Byte} {len : Nat} {t : Ty} {g : List Byte → Val}, bs.length = len →
      (∀ n, deBin env chk d (n + 1) t = (W32.readPrim chk d len >>= fun bs => Pure.pure (g bs))) →
      Gives d (fun n => deBin env chk d n t) bs (g bs) := by
    intro bs len t g hl e
    refine gives_succ ?_
    simp only [e]
    exact (Gives.readPrim hd bs hl).map
  have sized : ∀ {t : Ty} {p bs : List Byte} {v : Val} {f : Nat → Nat → BinM Val}, p.length = 8 →
      (∀ n, deBin env chk d (n + 1) t = (W32.readUsize chk d >>= f n)) → Gives d (fun n => f n (littleEndian p % 2 ^ 32)) bs v →
      Gives d (fun n => deBin env chk d n t) (p ++ bs) v := by
    intro t p bs v f hp e h
    refine gives_succ ?_
    simp only [e]
    exact (Gives.readUsize hd p hp).bind h
  have capped : ∀ {c : BinM Unit} {x : Nat → BinM Val} {bs : List Byte} {v : Val}, (∀ o, c o = .ok () o) →
      Gives d x bs v → Gives d (fun n => c >>= fun _ => x n) bs v := by
    intro c x bs v hc h
    have h1 : Gives d (fun _ => c) [] () := fun o _ => .const fun _ => hc o
    simpa using h1.bind (f := fun n _ => x n) h
  have entries : ∀ {k t : Ty} (ps : List ((List Byte × Val) × (List Byte × Val))),
      (∀ q ∈ ps, Gives d (fun n => deBin env chk d n k) q.1.1 q.1.2) → (∀ q ∈ ps, Gives d (fun n => deBin env chk d n t) q.2.1 q.2.2) →
      ∀ q ∈ ps.map (fun q => (q.1.1 ++ q.2.1, Val.entry q.1.2 q.2.2)),
        Gives d (fun n => entryM (deBin env chk d n k) (deBin env chk d n t)) q.1 q.2 := by
    intro k t ps h1 h2 q hq
    obtain ⟨r, hr, rfl⟩ := List.mem_map.1 hq
    exact (h1 r hr).bind (f := fun n a => deBin env chk d n t >>= fun b => Pure.pure (Val.entry a b)) (h2 r hr).map
  induction h with
  | unit => exact gives_succ (.pure _)
  | @bool b =>
    have : (decide (b ≠ 0)) = (leVal [b] != 0) := by
      rw [Bool.eq_iff_iff]; simp [leVal, ← UInt8.toNat_inj]
    rw [this]
    exact prim (g := fun bs => .bool (leVal bs != 0)) rfl fun _ => rfl
  | @int k bs i hu h1 h2 h3 =>
    have hv := twos_unique k _ i h2 h3
    rw [littleEndian_eq] at hv
    subst hv
    refine prim (g := fun bs => .int (ofTwos k.signed k.bytes (leVal bs))) h1 fun n => ?_
    cases k <;> first | rfl | exact absurd rfl hu
  | @usize bs h => exact gives_succ (Gives.readUsize hd bs h).map
  | @f32 bs x h1 h2 =>
    have : x = BitVec.ofNat 32 (leVal bs) := by rw [← littleEndian_eq, ← h2]; simp
    subst this
    exact prim (g := fun bs => .f32 (BitVec.ofNat 32 (leVal bs))) h1 fun _ => rfl
  | @f64 bs x h1 h2 =>
    have : x = BitVec.ofNat 64 (leVal bs) := by rw [← littleEndian_eq, ← h2]; simp
    subst this
    exact prim (g := fun bs => .f64 (BitVec.ofNat 64 (leVal bs))) h1 fun _ => rfl
  | str h1 h2 => exact gives_succ (Gives.deBinStr hd h1 h2).map
  | dur h1 h2 h3 h4 => exact gives_succ ((Gives.durBody (chk := chk) hd h1 h2 h3 h4).map (f := fun r : Nat × Nat => Val.dur r.1 r.2))
  | @epoch b h =>
    refine gives_succ ?_
    refine (Gives.readPrim hd [b] (len := 1) rfl).bind (cs := []) (f := fun _ tag => if leVal tag = 1 then
      (W32.deBinDur chk d >>= fun r => epochPlus r.1 r.2) else Pure.pure (.time 0 0)) ?_
    have : ¬ leVal [b] = 1 := by simpa [leVal] using fun hb => h ((toNat_one b).1 hb)
    simp only [if_neg this]
    exact .pure _
  | @time s n h1 h2 h3 h4 =>
    refine gives_succ ?_
    refine (Gives.readPrim hd [1] (len := 1) rfl).bind (cs := s ++ n) (f := fun _ tag => if leVal tag = 1 then
      (W32.deBinDur chk d >>= fun r => epochPlus r.1 r.2) else Pure.pure (.time 0 0)) ?_
    have : leVal [1] = 1 := rfl
    simp only [if_pos this]
    have := (Gives.durBody (chk := chk) hd h1 h2 h3 (by unfold u64Max; omega)).bind (cs := []) (f := fun _ r => epochPlus r.1 r.2)
      (b := .time (littleEndian s + littleEndian n / 1000000000 : Nat) (littleEndian n % 1000000000)) (fun o _ => .const fun _ => by
        simp only [epochPlus, if_pos h4]; rfl)
    simpa using this
  | @none t b h =>
    refine gives_succ ?_
    refine (Gives.readPrim hd [b] (len := 1) rfl).bind (cs := []) (f := fun n tag => if leVal tag = 1 then
      (deBin env chk d n t >>= fun v => Pure.pure (Val.some v)) else Pure.pure Val.none) ?_
    have : ¬ leVal [b] = 1 := by simpa [leVal] using fun hb => h ((toNat_one b).1 hb)
    simp only [if_neg this]
    exact .pure _
  | @some t bs v h ih =>
    refine gives_succ ?_
    refine (Gives.readPrim hd [1] (len := 1) rfl).bind (cs := bs) (f := fun n tag => if leVal tag = 1 then
      (deBin env chk d n t >>= fun v => Pure.pure (Val.some v)) else Pure.pure Val.none) ?_
    have : leVal [1] = 1 := rfl
    simp only [if_pos this]
    exact ih.map
  | @vec t p ps h1 h2 h3 _ ih =>
    refine sized (f := fun n len => vecCap env t len >>= fun _ => NS.repeatM (deBin env chk d n t) len >>= fun vs => Pure.pure (.seq vs)) h1 (fun _ => rfl) ?_
    rw [h2]
    exact capped (fun o => by simp only [vecCap, if_pos h3]) (Gives.repeatM ps ih).map
  | @linked t p ps h1 h2 _ ih =>
    refine sized (f := fun n len => NS.repeatM (deBin env chk d n t) len >>= fun vs => Pure.pure (.seq vs)) h1 (fun _ => rfl) ?_
    rw [h2]
    exact (Gives.repeatM ps ih).map
  | @hset t p ps h1 h2 h3 _ ih =>
    refine sized (f := fun n len => hashCap env (env.memSize t) len >>= fun _ => NS.insertLoop env .hset (deBin env chk d n t) len [] >>= fun vs => Pure.pure (.seq vs)) h1 (fun _ => rfl) ?_
    rw [h2, ← hset_fold_firsts hk]
    exact capped (fun o => by simp [hashCap, h3]) (Gives.insertLoop .hset ps ih).map
  | @bset t p r ps h1 h2 _ h4 ih =>
    refine sized (f := fun n len => NS.insertLoop env .bset (deBin env chk d n t) len [] >>= fun vs => Pure.pure (.seq vs)) h1 (fun _ => rfl) ?_
    rw [h2, ← bset_fold_unique hk h4]
    exact (Gives.insertLoop .bset ps ih).map
  | @array t n ps h1 _ ih =>
    subst h1
    exact gives_succ (Gives.repeatM ps ih).map
  | @pair a b ps h1 _ ih =>
    refine gives_succ ?_
    have := (Gives.deTys (f := deBin env chk d) ps ih).map (f := Val.seq)
    rw [h1] at this
    exact this
  | @triple a b c ps h1 _ ih =>
    refine gives_succ ?_
    have := (Gives.deTys (f := deBin env chk d) ps ih).map (f := Val.seq)
    rw [h1] at this
    exact this
  | @quad a b c e ps h1 _ ih =>
    refine gives_succ ?_
    have := (Gives.deTys (f := deBin env chk d) ps ih).map (f := Val.seq)
    rw [h1] at this
    exact this
  | @hmap k t p r ps h1 h2 h3 _ _ h6 h7 ih1 ih2 =>
    refine sized (f := fun n len => hashCap env (env.memSize k + env.memSize t) len >>= fun _ =>
      NS.insertLoop env .hmap (entryM (deBin env chk d n k) (deBin env chk d n t)) len [] >>= fun vs => Pure.pure (.seq vs)) h1 (fun _ => rfl) ?_
    have hE : AllEntries (ps.map fun p => Val.entry p.1.2 p.2.2) := by
      intro w hw
      obtain ⟨p, _, rfl⟩ := List.mem_map.1 hw
      exact ⟨_, _, rfl⟩
    have := (Gives.insertLoop (env := env) .hmap _ (entries ps ih1 ih2)).map (f := Val.seq)
    rw [List.map_map, List.flatMap_map, List.length_map] at this
    rw [← hmap_fold_unique hk hE h6 (by rw [h7, List.map_map]; rfl), h2]
    exact capped (fun o => by simp [hashCap, h3]) this
  | @bmap k t p r ps h1 h2 _ _ h6 h7 ih1 ih2 =>
    refine sized (f := fun n len =>
      NS.insertLoop env .bmap (entryM (deBin env chk d n k) (deBin env chk d n t)) len [] >>= fun vs => Pure.pure (.seq vs)) h1 (fun _ => rfl) ?_
    have hE : AllEntries (ps.map fun p => Val.entry p.1.2 p.2.2) := by
      intro w hw
      obtain ⟨p, _, rfl⟩ := List.mem_map.1 hw
      exact ⟨_, _, rfl⟩
    have := (Gives.insertLoop (env := env) .bmap _ (entries ps ih1 ih2)).map (f := Val.seq)
    rw [List.map_map, List.flatMap_map, List.length_map] at this
    rw [← bmap_fold_unique hk hE h6 h7, h2]
    exact this
  | box _ ih => exact gives_succ ih.map
  | @struct i cd nul ps hdef h2 _ ih =>
    refine gives_succ ?_
    have := (Gives.deFields (f := deBin env chk d) true ps (fun q hq _ => h2 q hq) (fun q hq hs => ih q hq (by
      simpa using hs))).map (f := Val.struct)
    simp only [deBin, hdef]
    exact this
  | @tupleStruct i tr ps hdef _ ih =>
    refine gives_succ ?_
    simp only [deBin, hdef]
    exact (Gives.deTys (f := deBin env chk d) ps ih).map
  | @variant i vars p var hdef hp hv hs =>
    have := gives_enum (chk := chk) (bs := []) (vs := []) hd hdef hp hv (by rw [hs]; exact .pure _)
    rwa [List.append_nil] at this
  | @tupleVariant i vars p var ps hdef hp hv hs _ ih =>
    exact gives_enum hd hdef hp hv (by rw [hs]; exact Gives.deTys (f := deBin env chk d) ps ih)
  | @structVariant i vars p var ps hdef hp hv hs _ ih =>
    exact gives_enum hd hdef hp hv (by
      rw [hs]; exact Gives.deFields (f := deBin env chk d) false ps (by simp) (fun q hq _ => ih q hq))
  | @proxied i px bs p hdef _ ih =>
    refine gives_succ ?_
    simp only [deBin, hdef]
    exact ih.map (f := fun p => Val.prox (px.back p) (px.into (px.back p)))

end NS.W32
