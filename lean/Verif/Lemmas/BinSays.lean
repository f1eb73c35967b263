import Verif.Spec.BinRead
import Verif.Lemmas.BinPanic
import Verif.Lemmas.CollSpec
import Verif.Props.BinLayout
/-! Reading bytes is exact (lemmas for C68). -/
namespace NS
variable {env : Env} {chk : Bool} {d : List Byte}

theorem At.join {o : Nat} {a b : List Byte} (h : At d o a) (h' : At d (o + a.length) b) : At d o (a ++ b) := by
  obtain ⟨p, q, rfl, rfl⟩ := h
  obtain ⟨p', q', e, e'⟩ := h'
  have : p' = p ++ a := by
    have h1 := congrArg (List.take (p.length + a.length)) e
    rw [← e'] at h1
    rw [List.append_assoc p', List.take_left, e'] at h1
    rw [List.take_left' (by simp)] at h1
    exact h1.symm
  subst this
  refine ⟨p, q', ?_, rfl⟩
  rw [e]; simp

theorem At.nil {o : Nat} (h : o ≤ d.length) : At d o [] := ⟨d.take o, d.drop o, by simp, by simp [h]⟩

theorem At.sub {o n : Nat} (h : o + n ≤ d.length) : At d o ((d.drop o).take n) :=
  ⟨d.take o, (d.drop o).drop n, by rw [List.append_assoc, List.take_append_drop, List.take_append_drop], by
    rw [List.length_take]; omega⟩

/-- `x` reads bytes that satisfy `P`, whenever it succeeds. -/
def Takes {α : Type} (d : List Byte) (x : BinM α) (P : List Byte → α → Prop) : Prop :=
  ∀ o a o', o ≤ d.length → x o = .ok a o' → ∃ bs, At d o bs ∧ o' = o + bs.length ∧ P bs a

theorem Takes.pure {α : Type} {a : α} {P : List Byte → α → Prop} (h : P [] a) : Takes d (Pure.pure a) P := by
  intro o b o' ho e
  cases e
  exact ⟨[], .nil ho, rfl, h⟩

theorem Takes.bind {α β : Type} {x : BinM α} {f : α → BinM β} {P : List Byte → α → Prop} {Q : List Byte → β → Prop}
    (h : Takes d x P) (h' : ∀ bs a, P bs a → Takes d (f a) (fun cs b => Q (bs ++ cs) b)) : Takes d (x >>= f) Q := by
  intro o b o' ho e
  obtain ⟨a, s, e1, e2⟩ := M.bind_eq_ok.1 e
  obtain ⟨bs, g1, rfl, g2⟩ := h o a s ho e1
  obtain ⟨cs, k1, rfl, k2⟩ := h' bs a g2 _ b o' g1.le e2
  exact ⟨bs ++ cs, g1.join k1, by simp [Nat.add_assoc], k2⟩

theorem Takes.imp {α : Type} {x : BinM α} {P Q : List Byte → α → Prop} (h : Takes d x P) (hi : ∀ bs a, P bs a → Q bs a) :
    Takes d x Q := fun o a o' ho e => by
  obtain ⟨bs, g1, g2, g3⟩ := h o a o' ho e
  exact ⟨bs, g1, g2, hi _ _ g3⟩

theorem Takes.map {α β : Type} {x : BinM α} {f : α → β} {P : List Byte → α → Prop} {Q : List Byte → β → Prop}
    (h : Takes d x P) (hi : ∀ bs a, P bs a → Q bs (f a)) : Takes d (x >>= fun a => Pure.pure (f a)) Q :=
  h.bind fun bs a ha => .pure (by simpa using hi bs a ha)

theorem Takes.readPrim (len : Nat) (hl : len < 2 ^ 63) (hd : d.length ≤ isizeMax) :
    Takes d (readPrim chk d len) (fun bs a => a = bs ∧ bs.length = len) := by
  intro o a o' ho e
  obtain ⟨rfl, h2, rfl⟩ := readPrim_ok hl hd e
  have : ((d.drop o).take len).length = len := by simp; omega
  exact ⟨_, .sub h2, by rw [this], rfl, this⟩

theorem Takes.readUsize (hd : d.length ≤ isizeMax) :
    Takes d (readUsize chk d) (fun bs a => a = littleEndian bs ∧ bs.length = 8) := by
  intro o a o' ho e
  obtain ⟨rfl, h2, rfl⟩ := readUsize_ok hd e
  have : ((d.drop o).take 8).length = 8 := by simp; omega
  exact ⟨_, .sub h2, by rw [this], (littleEndian_eq _).symm, this⟩

theorem littleEndian_lt (bs : List Byte) : littleEndian bs < 2 ^ (8 * bs.length) := by
  rw [littleEndian_eq, ← pow256]; exact leVal_lt bs

theorem Takes.deBinStr (hd : d.length ≤ isizeMax) :
    Takes d (deBinStr chk d) (fun bs s => ∃ p, bs = p ++ stdUtf8 s ∧ p.length = 8 ∧ littleEndian p = (stdUtf8 s).length) := by
  rw [deBinStr_eq_body]
  refine (Takes.readUsize hd).bind ?_
  rintro p len ⟨rfl, hp⟩ o s o' ho e
  obtain ⟨rfl, h2, h3⟩ := strBody_ok (by have := littleEndian_lt p; rwa [hp] at this) ho hd e
  have hl : ((d.drop o).take (littleEndian p)).length = littleEndian p := by simp; omega
  have hu := utf8_fromUtf8 _ _ h3
  rw [utf8_std] at hu
  refine ⟨_, .sub h2, by rw [hl], p, by rw [hu], hp, ?_⟩
  rw [hu, hl]

theorem Takes.deBinDur (hd : d.length ≤ isizeMax) :
    Takes d (deBinDur chk d) (fun bs r => ∃ s n, bs = s ++ n ∧ s.length = 8 ∧ n.length = 4 ∧ littleEndian n ≤ 1000000000 ∧
      littleEndian s + littleEndian n / 1000000000 ≤ u64Max ∧
      r = (littleEndian s + littleEndian n / 1000000000, littleEndian n % 1000000000)) := by
  refine (Takes.readPrim 8 (by decide) hd).bind ?_
  rintro _ s ⟨rfl, hs⟩
  refine (Takes.readPrim 4 (by decide) hd).bind ?_
  rintro _ n ⟨rfl, hn⟩ o r o' ho e
  replace e : (if leVal n > 1000000000 then (M.get >>= fun o => M.throw ⟨o, .range⟩ : BinM (Nat × Nat)) else durNew (leVal s) (leVal n)) o = .ok r o' := e
  by_cases h : leVal n > 1000000000
  · rw [if_pos h] at e; cases e
  · rw [if_neg h] at e
    have hs' := littleEndian_lt s
    rw [hs] at hs'
    rw [← littleEndian_eq, ← littleEndian_eq] at e
    rw [← littleEndian_eq] at h
    unfold durNew at e
    split at e
    · cases e
      exact ⟨[], .nil ho, rfl, s, n, by simp, hs, hn, by omega, by unfold u64Max; omega, by
        rw [Nat.div_eq_of_lt (by assumption), Nat.mod_eq_of_lt (by assumption)]; rfl⟩
    · split at e
      · cases e
        exact ⟨[], .nil ho, rfl, s, n, by simp, hs, hn, by omega, by assumption, rfl⟩
      · cases e

theorem Takes.repeatM {α : Type} {x : BinM α} {P : List Byte → α → Prop} (h : Takes d x P) (n : Nat) :
    Takes d (repeatM x n) (fun bs vs => ∃ ps : List (List Byte × α), ps.length = n ∧ (∀ q ∈ ps, P q.1 q.2) ∧
      vs = ps.map (·.2) ∧ bs = ps.flatMap (·.1)) := by
  induction n with
  | zero => exact .pure ⟨[], rfl, by simp, rfl, rfl⟩
  | succ n ih =>
    refine h.bind fun bs a ha => ih.map ?_
    rintro cs vs ⟨ps, p1, p2, rfl, rfl⟩
    exact ⟨(bs, a) :: ps, by simp [p1], List.forall_mem_cons.2 ⟨ha, p2⟩, rfl, by simp⟩

theorem Takes.insertLoop {x : BinM Val} {P : List Byte → Val → Prop} (h : Takes d x P) (c : Coll) (n : Nat) :
    Takes d (insertLoop env c x n []) (fun bs vs => ∃ ps : List (List Byte × Val), ps.length = n ∧ (∀ q ∈ ps, P q.1 q.2) ∧
      vs = (ps.map (·.2)).foldl (collInsert env c) [] ∧ bs = ps.flatMap (·.1)) := by
  intro o a o' ho e
  rw [insertLoop_eq] at e
  have key : Takes d (NS.repeatM x n >>= fun vs => Pure.pure (vs.foldl (collInsert env c) [])) (fun bs vs =>
      ∃ ps : List (List Byte × Val), ps.length = n ∧ (∀ q ∈ ps, P q.1 q.2) ∧
        vs = (ps.map (·.2)).foldl (collInsert env c) [] ∧ bs = ps.flatMap (·.1)) := by
    refine (h.repeatM n).map ?_
    rintro bs vs ⟨ps, p1, p2, rfl, p4⟩
    exact ⟨ps, p1, p2, rfl, p4⟩
  exact key o a o' ho e

theorem Takes.deTys {f : Ty → BinM Val} {P : Ty → List Byte → Val → Prop} (h : ∀ t, Takes d (f t) (P t)) (ts : List Ty) :
    Takes d (deTys f ts) (fun bs vs => ∃ ps : List (Ty × List Byte × Val), ps.map (·.1) = ts ∧ (∀ q ∈ ps, P q.1 q.2.1 q.2.2) ∧
      vs = ps.map (·.2.2) ∧ bs = ps.flatMap (·.2.1)) := by
  induction ts with
  | nil => exact .pure ⟨[], rfl, by simp, rfl, rfl⟩
  | cons t ts ih =>
    refine (h t).bind fun bs a ha => ih.map ?_
    rintro cs vs ⟨ps, p1, p2, rfl, rfl⟩
    exact ⟨(t, bs, a) :: ps, by simp [p1], List.forall_mem_cons.2 ⟨ha, p2⟩, rfl, by simp⟩

theorem Takes.deFields {f : Ty → BinM Val} {P : Ty → List Byte → Val → Prop} (h : ∀ t, Takes d (f t) (P t)) (us : Bool)
    (fs : List Field) :
    Takes d (deBinFields f us fs) (fun bs vs => ∃ ps : List (Field × List Byte × Val), ps.map (·.1) = fs ∧
      (∀ q ∈ ps, us = true → q.1.skip = true → q.2 = ([], q.1.tyDefault)) ∧
      (∀ q ∈ ps, ¬ (us = true ∧ q.1.skip = true) → P q.1.ty q.2.1 q.2.2) ∧
      vs = ps.map (·.2.2) ∧ bs = ps.flatMap (·.2.1)) := by
  induction fs with
  | nil => exact .pure ⟨[], rfl, by simp, by simp, rfl, rfl⟩
  | cons g fs ih =>
    have hg : Takes d (if us = true ∧ g.skip = true then Pure.pure g.tyDefault else f g.ty : BinM Val) (fun bs a =>
        (us = true → g.skip = true → (bs, a) = ([], g.tyDefault)) ∧ (¬ (us = true ∧ g.skip = true) → P g.ty bs a)) := by
      by_cases hc : us = true ∧ g.skip = true
      · rw [if_pos hc]; exact .pure ⟨fun _ _ => rfl, fun hn => absurd hc hn⟩
      · rw [if_neg hc]; exact (h _).imp fun bs a ha => ⟨fun h1 h2 => absurd ⟨h1, h2⟩ hc, fun _ => ha⟩
    have e : deBinFields f us (g :: fs) = ((if us = true ∧ g.skip = true then Pure.pure g.tyDefault else f g.ty : BinM Val) >>= fun a =>
        deBinFields f us fs >>= fun as => Pure.pure (a :: as)) := by
      rw [deBinFields]; split <;> rfl
    rw [e]
    refine hg.bind fun bs a ha => ih.map ?_
    rintro cs vs ⟨ps, p1, p2, p3, rfl, rfl⟩
    exact ⟨(g, bs, a) :: ps, by simp [p1], List.forall_mem_cons.2 ⟨ha.1, p2⟩, List.forall_mem_cons.2 ⟨ha.2, p3⟩, rfl, by simp⟩

theorem twos_mod (k : IntKind) (x : Nat) (h : x < 2 ^ (8 * k.bytes)) :
    ofTwos k.signed k.bytes x % 2 ^ (8 * k.bytes) = x := by
  cases k <;> simp [IntKind.signed, IntKind.bytes, ofTwos] at h ⊢ <;> (try split) <;> omega

theorem twos_unique (k : IntKind) (x : Nat) (i : Int) (hi : k.inRange i) (h : i % 2 ^ (8 * k.bytes) = x) :
    ofTwos k.signed k.bytes x = i := by
  have e : toTwos k.bytes i = x := by unfold toTwos; simp only [Nat.cast_pow, Nat.cast_ofNat]; rw [h]; simp
  rw [← e]; exact ofTwos_toTwos k i hi

theorem bytesUsize_spec (m : Nat) (hm : m < 2 ^ 64) : ofTwos IntKind.usize.signed IntKind.usize.bytes m = (m : Int) := by
  simp [ofTwos, IntKind.signed]

theorem one_byte {bs : List Byte} (h : bs.length = 1) : ∃ b, bs = [b] ∧ leVal bs = b.toNat := by
  match bs, h with
  | [b], _ => exact ⟨b, rfl, by simp [leVal]⟩

theorem toNat_one (b : Byte) : b.toNat = 1 ↔ b = 1 := by
  constructor
  · intro h; exact UInt8.toNat_inj.1 h
  · rintro rfl; rfl

theorem Takes.deBin (hk : LawfulKeys env) (hd : d.length ≤ isizeMax) : ∀ (n : Nat) (t : Ty),
    Takes d (deBin env chk d n t) (BinSays env t) := by
  intro n
  induction n with
  | zero => intro t o a o' ho e; cases e
  | succ n ih =>
    intro t
    have len : ∀ {β : Type} {f : Nat → BinM β} {Q : List Byte → β → Prop},
        (∀ p, p.length = 8 → Takes d (f (littleEndian p)) (fun bs b => Q (p ++ bs) b)) →
        Takes d (NS.readUsize chk d >>= f) Q := fun h =>
      (Takes.readUsize hd).bind fun p a hp => by rw [hp.1]; exact h p hp.2
    cases t with
    | unit => exact .pure .unit
    | bool =>
      refine (Takes.readPrim 1 (by decide) hd).map ?_
      rintro _ bs ⟨rfl, h⟩
      obtain ⟨b, rfl, hb⟩ := one_byte h
      have : (leVal [b] != 0) = decide (b ≠ 0) := by
        rw [hb, Bool.eq_iff_iff]; simp [← UInt8.toNat_inj]
      rw [this]; exact .bool
    | int k =>
      by_cases hu : k = .usize
      · subst hu
        refine (Takes.readUsize hd).map ?_
        rintro bs _ ⟨rfl, h⟩
        have hl := littleEndian_lt bs
        rw [h] at hl
        refine .int h ?_ ?_
        · rw [← bytesUsize_spec _ hl]; exact ofTwos_inRange .usize _ hl
        · have := twos_mod .usize _ hl
          rw [bytesUsize_spec _ hl] at this; exact_mod_cast this
      · have e : NS.deBin env chk d (n + 1) (.int k) = (NS.readPrim chk d k.bytes >>= fun bs =>
            Pure.pure (.int (ofTwos k.signed k.bytes (leVal bs)))) := by
          cases k <;> first | rfl | exact absurd rfl hu
        rw [e]
        refine (Takes.readPrim _ (by cases k <;> decide) hd).map ?_
        rintro _ bs ⟨rfl, h⟩
        have hl := littleEndian_lt bs
        rw [h, littleEndian_eq] at hl
        exact .int h (ofTwos_inRange k _ hl) (by rw [littleEndian_eq]; exact twos_mod k _ hl)
    | f32 =>
      refine (Takes.readPrim 4 (by decide) hd).map ?_
      rintro _ bs ⟨rfl, h⟩
      have hl := littleEndian_lt bs
      rw [h] at hl
      exact .f32 h (by rw [← littleEndian_eq, BitVec.toNat_ofNat]; omega)
    | f64 =>
      refine (Takes.readPrim 8 (by decide) hd).map ?_
      rintro _ bs ⟨rfl, h⟩
      have hl := littleEndian_lt bs
      rw [h] at hl
      exact .f64 h (by rw [← littleEndian_eq, BitVec.toNat_ofNat]; omega)
    | str =>
      refine (Takes.deBinStr hd).map ?_
      rintro bs s ⟨p, rfl, h1, h2⟩
      exact .str h1 h2
    | dur =>
      refine (Takes.deBinDur hd).map ?_
      rintro bs _ ⟨s, n, rfl, h1, h2, h3, h4, rfl⟩
      exact .dur h1 h2 h3 h4
    | time =>
      refine (Takes.readPrim 1 (by decide) hd).bind ?_
      rintro _ bs ⟨rfl, h⟩
      obtain ⟨b, rfl, hb⟩ := one_byte h
      by_cases h1 : leVal [b] = 1
      · rw [if_pos h1]
        obtain rfl := (toNat_one b).1 (hb ▸ h1)
        refine (Takes.deBinDur hd).bind ?_
        rintro bs _ ⟨s, n, rfl, g1, g2, g3, g4, rfl⟩ o v o' ho e
        replace e : epochPlus (littleEndian s + littleEndian n / 1000000000) (littleEndian n % 1000000000) o = .ok v o' := e
        unfold epochPlus at e
        split at e
        · cases e
          refine ⟨[], .nil ho, rfl, ?_⟩
          have := BinSays.time (env := env) g1 g2 g3 (by assumption)
          simpa using this
        · cases e
      · rw [if_neg h1]
        exact .pure (.epoch fun hb' => h1 (by rw [hb, hb']; rfl))
    | option t =>
      refine (Takes.readPrim 1 (by decide) hd).bind ?_
      rintro _ bs ⟨rfl, h⟩
      obtain ⟨b, rfl, hb⟩ := one_byte h
      by_cases h1 : leVal [b] = 1
      · rw [if_pos h1]
        obtain rfl := (toNat_one b).1 (hb ▸ h1)
        exact (ih t).map fun bs v hv => .some hv
      · rw [if_neg h1]
        exact .pure (.none fun hb' => h1 (by rw [hb, hb']; rfl))
    | vec t =>
      refine len fun p hp => ?_
      intro o v o' ho e
      obtain ⟨_, s, e1, e2⟩ := M.bind_eq_ok.1 e
      unfold vecCap at e1
      split at e1
      · rename_i hc
        cases e1
        refine ((ih t).repeatM (littleEndian p)).map (f := Val.seq) ?_ o v o' ho e2
        rintro bs _ ⟨ps, q1, q2, rfl, rfl⟩
        rw [← q1] at hc
        exact .vec ps hp q1.symm hc q2
      · cases e1
    | linked t =>
      refine len fun p hp => ?_
      refine ((ih t).repeatM (littleEndian p)).map (f := Val.seq) ?_
      rintro bs _ ⟨ps, q1, q2, rfl, rfl⟩
      exact .linked ps hp q1.symm q2
    | hset t =>
      refine len fun p hp => ?_
      intro o v o' ho e
      obtain ⟨_, s, e1, e2⟩ := M.bind_eq_ok.1 e
      unfold hashCap at e1
      split at e1
      · cases e1
      · rename_i hc
        cases e1
        refine ((ih t).insertLoop .hset (littleEndian p)).map (f := Val.seq) ?_ o v o' ho e2
        rintro bs _ ⟨ps, q1, q2, rfl, rfl⟩
        rw [← q1] at hc
        rw [hset_fold_firsts hk]
        exact .hset ps hp q1.symm (by simpa using hc) q2
    | bset t =>
      refine len fun p hp => ?_
      refine ((ih t).insertLoop .bset (littleEndian p)).map (f := Val.seq) ?_
      rintro bs _ ⟨ps, q1, q2, rfl, rfl⟩
      refine .bset ps hp q1.symm q2 ⟨bset_fold_pairwise hk _ _ (by simp), fun x => ?_⟩
      rw [bset_fold_mem hk]; simp
    | array t m =>
      refine ((ih t).repeatM m).map (f := Val.seq) ?_
      rintro bs _ ⟨ps, q1, q2, rfl, rfl⟩
      exact .array ps q1 q2
    | pair a b =>
      refine (Takes.deTys ih [a, b]).map (f := Val.seq) ?_
      rintro bs _ ⟨ps, q1, q2, rfl, rfl⟩
      exact .pair ps q1 q2
    | triple a b c =>
      refine (Takes.deTys ih [a, b, c]).map (f := Val.seq) ?_
      rintro bs _ ⟨ps, q1, q2, rfl, rfl⟩
      exact .triple ps q1 q2
    | quad a b c e =>
      refine (Takes.deTys ih [a, b, c, e]).map (f := Val.seq) ?_
      rintro bs _ ⟨ps, q1, q2, rfl, rfl⟩
      exact .quad ps q1 q2
    | hmap k t =>
      refine len fun p hp => ?_
      intro o v o' ho e
      obtain ⟨_, s, e1, e2⟩ := M.bind_eq_ok.1 e
      unfold hashCap at e1
      split at e1
      · cases e1
      · rename_i hc
        cases e1
        have he : Takes d (entryM (NS.deBin env chk d n k) (NS.deBin env chk d n t)) (fun bs v => ∃ q : (List Byte × Val) × (List Byte × Val),
            BinSays env k q.1.1 q.1.2 ∧ BinSays env t q.2.1 q.2.2 ∧ v = .entry q.1.2 q.2.2 ∧ bs = q.1.1 ++ q.2.1) :=
          (ih k).bind fun bs a ha => (ih t).map fun cs b hb => ⟨((bs, a), (cs, b)), ha, hb, rfl, rfl⟩
        refine (he.insertLoop .hmap (littleEndian p)).map (f := Val.seq) ?_ o v o' ho e2
        rintro bs _ ⟨ps, q1, q2, rfl, rfl⟩
        obtain ⟨qs, w1, w2, w3, w4⟩ : ∃ qs : List ((List Byte × Val) × (List Byte × Val)), qs.length = ps.length ∧
            (∀ q ∈ qs, BinSays env k q.1.1 q.1.2 ∧ BinSays env t q.2.1 q.2.2) ∧
            (ps.map (·.2)) = qs.map (fun q => Val.entry q.1.2 q.2.2) ∧ ps.flatMap (·.1) = qs.flatMap fun q => q.1.1 ++ q.2.1 := by
          clear hc q1 e2 e
          induction ps with
          | nil => exact ⟨[], rfl, by simp, rfl, rfl⟩
          | cons r ps ihp =>
            obtain ⟨qs, w1, w2, w3, w4⟩ := ihp fun q hq => q2 q (by simp [hq])
            obtain ⟨q, z1, z2, z3, z4⟩ := q2 r (by simp)
            exact ⟨q :: qs, by simp [w1], List.forall_mem_cons.2 ⟨⟨z1, z2⟩, w2⟩, by simp [w3, z3], by simp [w4, z4]⟩
        rw [w3, w4]
        have hE : AllEntries (qs.map fun p => Val.entry p.1.2 p.2.2) := by
          intro w hw
          obtain ⟨p, _, rfl⟩ := List.mem_map.1 hw
          exact ⟨_, _, rfl⟩
        refine .hmap qs hp (by rw [w1, q1]) (by rw [w1, q1]; simpa using hc) (fun q hq => (w2 q hq).1) (fun q hq => (w2 q hq).2)
          ⟨(hmap_fold_pairwise hk _ [] hE (by simp [AllEntries]) (by simp)).1, fun q => ?_⟩ ?_
        · rw [hmap_fold_get hk _ _ _ hE (by simp [AllEntries])]
          cases lastVal q (qs.map fun p => Val.entry p.1.2 p.2.2) <;> rfl
        · rw [hmap_fold_keys _ _ hE (by simp [AllEntries]), List.map_nil, hset_fold_firsts hk, List.map_map]
          rfl
    | bmap k t =>
      refine len fun p hp => ?_
      have he : Takes d (entryM (NS.deBin env chk d n k) (NS.deBin env chk d n t)) (fun bs v => ∃ q : (List Byte × Val) × (List Byte × Val),
          BinSays env k q.1.1 q.1.2 ∧ BinSays env t q.2.1 q.2.2 ∧ v = .entry q.1.2 q.2.2 ∧ bs = q.1.1 ++ q.2.1) :=
        (ih k).bind fun bs a ha => (ih t).map fun cs b hb => ⟨((bs, a), (cs, b)), ha, hb, rfl, rfl⟩
      refine (he.insertLoop .bmap (littleEndian p)).map (f := Val.seq) ?_
      rintro bs _ ⟨ps, q1, q2, rfl, rfl⟩
      obtain ⟨qs, w1, w2, w3, w4⟩ : ∃ qs : List ((List Byte × Val) × (List Byte × Val)), qs.length = ps.length ∧
          (∀ q ∈ qs, BinSays env k q.1.1 q.1.2 ∧ BinSays env t q.2.1 q.2.2) ∧
          (ps.map (·.2)) = qs.map (fun q => Val.entry q.1.2 q.2.2) ∧ ps.flatMap (·.1) = qs.flatMap fun q => q.1.1 ++ q.2.1 := by
        clear q1
        induction ps with
        | nil => exact ⟨[], rfl, by simp, rfl, rfl⟩
        | cons r ps ihp =>
          obtain ⟨qs, w1, w2, w3, w4⟩ := ihp fun q hq => q2 q (by simp [hq])
          obtain ⟨q, z1, z2, z3, z4⟩ := q2 r (by simp)
          exact ⟨q :: qs, by simp [w1], List.forall_mem_cons.2 ⟨⟨z1, z2⟩, w2⟩, by simp [w3, z3], by simp [w4, z4]⟩
      rw [w3, w4]
      have hE : AllEntries (qs.map fun p => Val.entry p.1.2 p.2.2) := by
        intro w hw
        obtain ⟨p, _, rfl⟩ := List.mem_map.1 hw
        exact ⟨_, _, rfl⟩
      have hps := bmap_fold_pairwise hk (qs.map fun p => Val.entry p.1.2 p.2.2) [] hE (by simp [AllEntries]) (by simp)
      refine .bmap qs hp (by rw [w1, q1]) (fun q hq => (w2 q hq).1) (fun q hq => (w2 q hq).2) ⟨hps.1, fun q => ?_⟩ hps.2
      rw [bmap_fold_get hk _ _ _ hE (by simp [AllEntries])]
      cases lastVal q (qs.map fun p => Val.entry p.1.2 p.2.2) <;> rfl
    | box t => exact (ih t).map fun bs v hv => .box hv
    | named i =>
      rw [NS.deBin]
      cases hdef : env.defs[i]? with
      | none => intro o v o' ho e; cases e
      | some df =>
        cases df with
        | struct fs cd nul =>
          refine (Takes.deFields ih true fs).map (f := Val.struct) ?_
          rintro bs _ ⟨ps, rfl, q2, q3, rfl, rfl⟩
          exact .struct ps hdef (fun q hq => q2 q hq rfl) (fun q hq hs => q3 q hq (by simp [hs]))
        | tuple ts tr =>
          refine (Takes.deTys ih ts).map (f := Val.struct) ?_
          rintro bs _ ⟨ps, rfl, q2, rfl, rfl⟩
          exact .tupleStruct ps hdef q2
        | enum vars =>
          refine (Takes.readPrim 2 (by decide) hd).bind ?_
          rintro _ p ⟨rfl, hp⟩
          rw [← littleEndian_eq]
          cases hv : vars[littleEndian p]? with
          | none => intro o v o' ho e; cases e
          | some var =>
            show Takes d (deBinShape (NS.deBin env chk d n) var.shape >>= fun vs => Pure.pure (Val.variant (littleEndian p) vs)) _
            cases hsh : var.shape with
            | unit =>
              refine Takes.map (P := fun bs vs => bs = [] ∧ vs = []) (.pure ⟨rfl, rfl⟩) ?_
              rintro _ _ ⟨rfl, rfl⟩
              simpa using BinSays.variant hdef hp hv hsh
            | tuple ts =>
              refine (Takes.deTys ih ts).map ?_
              rintro bs _ ⟨ps, rfl, q2, rfl, rfl⟩
              exact .tupleVariant ps hdef hp hv hsh q2
            | named fs =>
              refine (Takes.deFields ih false fs).map ?_
              rintro bs _ ⟨ps, rfl, q2, q3, rfl, rfl⟩
              exact .structVariant ps hdef hp hv hsh (fun q hq => q3 q hq (by simp))
    | proxied i =>
      rw [NS.deBin]
      cases hdef : env.proxies[i]? with
      | none => intro o v o' ho e; cases e
      | some px => exact (ih px.ty).map fun bs v hv => .proxied hdef hv

end NS
