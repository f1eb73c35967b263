import Verif.Lemmas.BinSays2
import Verif.Lemmas.ProgTys
/-! Reading bytes stops (lemmas for C69). -/
namespace NS
variable {env : Env} {chk : Bool} {d : List Byte}

/-- From an offset of at least `lo`, `x` stops, and if it succeeds has consumed at least `k` bytes. -/
def BStops {α : Type} (d : List Byte) (lo k : Nat) (x : BinM α) : Prop :=
  ∀ o, lo ≤ o → o ≤ d.length → x o ≠ .oof ∧ ∀ a o', x o = .ok a o' → o + k ≤ o' ∧ o' ≤ d.length

theorem BStops.pure {α : Type} {lo : Nat} (a : α) : BStops d lo 0 (Pure.pure a : BinM α) := by
  intro o _ ho
  refine ⟨by simp, fun b o' h => ?_⟩
  cases h
  exact ⟨Nat.le_refl _, ho⟩

theorem BStops.bind {α β : Type} {lo k : Nat} {x : BinM α} {f : α → BinM β} (h : BStops d lo k x)
    (h' : ∀ a, BStops d (lo + k) 0 (f a)) : BStops d lo k (x >>= f) := by
  intro o hl ho
  obtain ⟨h1, h2⟩ := h o hl ho
  cases hx : x o with
  | ok a s =>
    obtain ⟨g1, g2⟩ := h2 a s hx
    obtain ⟨k1, k2⟩ := h' a s (by omega) g2
    rw [M.bind_ok hx]
    exact ⟨k1, fun b o' hb => by have := k2 b o' hb; omega⟩
  | err e s => rw [M.bind_err hx]; exact ⟨by simp, fun _ _ hb => by cases hb⟩
  | panic => rw [M.bind_panic hx]; exact ⟨by simp, fun _ _ hb => by cases hb⟩
  | oof => exact absurd hx h1

theorem BStops.weaken {α : Type} {lo lo' k k' : Nat} {x : BinM α} (h : BStops d lo k x) (hl : lo ≤ lo') (hk : k' ≤ k) :
    BStops d lo' k' x := fun o h1 h2 => by
  obtain ⟨a, b⟩ := h o (by omega) h2
  exact ⟨a, fun v o' e => by have := b v o' e; omega⟩

theorem BStops.const {α : Type} {lo : Nat} {x : BinM α} (h1 : ∀ o, x o ≠ .oof) (h2 : ∀ o a o', x o = .ok a o' → o' = o) :
    BStops d lo 0 x := fun o _ ho => ⟨h1 o, fun a o' e => by rw [h2 o a o' e]; omega⟩

theorem BStops.readPrim {lo : Nat} (len : Nat) (hl : len < 2 ^ 63) (hd : d.length ≤ isizeMax) : BStops d lo len (readPrim chk d len) := by
  intro o _ ho
  by_cases h : o + len ≤ d.length
  · rw [readPrim_eq h hd]
    refine ⟨by simp, fun a o' e => ?_⟩
    cases e; omega
  · rw [readPrim_short (by omega) ho hl hd]
    exact ⟨by simp, fun _ _ e => by cases e⟩

theorem BStops.readUsize {lo : Nat} (hd : d.length ≤ isizeMax) : BStops d lo 8 (readUsize chk d) := by
  intro o _ ho
  by_cases h : o + 8 ≤ d.length
  · rw [readUsize_eq h hd]
    refine ⟨by simp, fun a o' e => ?_⟩
    cases e; omega
  · rw [readUsize_short (by omega) ho hd]
    exact ⟨by simp, fun _ _ e => by cases e⟩

theorem addUsize_oof {a b o : Nat} : addUsize chk a b o ≠ .oof := by
  unfold addUsize; split
  · simp
  · split <;> simp

theorem BStops.deBinStr {lo : Nat} (hd : d.length ≤ isizeMax) : BStops d lo 0 (deBinStr chk d) := by
  rw [deBinStr_eq_body]
  intro o hl ho
  obtain ⟨h1, h2⟩ := BStops.readUsize (chk := chk) (lo := lo) hd o hl ho
  cases hx : NS.readUsize chk d o with
  | ok len s =>
    obtain ⟨g1, g2⟩ := h2 len s hx
    rw [M.bind_ok hx]
    have hlen : len < 2 ^ 64 := by
      obtain ⟨_, _, rfl⟩ := readUsize_ok hd hx
      exact take8_lt d o
    constructor
    · intro hs
      by_cases hov : s + len < 2 ^ 64
      · by_cases hin : s + len ≤ d.length
        · rw [strBody_eq hin hd] at hs
          split at hs <;> cases hs
        · rw [strBody_short (by omega) hov] at hs; cases hs
      · unfold strBody at hs
        rw [M.bind_ok (M.get_apply s)] at hs
        cases ha : addUsize chk s len s with
        | ok e s' =>
          rw [M.bind_ok ha] at hs
          obtain ⟨rfl, hc⟩ := addUsize_cases ha
          split at hs
          · cases hs
          · rw [M.bind_ok ha] at hs
            unfold isizeMax at hd
            have : NS.slice d s' e s' = .panic := by
              unfold NS.slice
              rw [if_neg]
              rcases hc with hc | ⟨_, _, rfl⟩ <;> omega
            rw [M.bind_panic this] at hs
            cases hs
        | err e s' => rw [M.bind_err ha] at hs; cases hs
        | panic => rw [M.bind_panic ha] at hs; cases hs
        | oof => exact addUsize_oof ha
    · intro a o' e
      obtain ⟨rfl, h3, _⟩ := strBody_ok hlen g2 hd e
      omega
  | err e s => rw [M.bind_err hx]; exact ⟨by simp, fun _ _ hb => by cases hb⟩
  | panic => rw [M.bind_panic hx]; exact ⟨by simp, fun _ _ hb => by cases hb⟩
  | oof => exact absurd hx h1

theorem durNew_const {s n : Nat} : (∀ o, durNew s n o ≠ .oof) ∧ ∀ o a o', durNew s n o = .ok a o' → o' = o := by
  constructor
  · intro o
    unfold durNew
    split
    · simp
    · split <;> simp
  · intro o a o' h
    unfold durNew at h
    split at h
    · cases h; rfl
    · split at h
      · cases h; rfl
      · cases h

theorem epochPlus_const {s n : Nat} : (∀ o, epochPlus s n o ≠ .oof) ∧ ∀ o a o', epochPlus s n o = .ok a o' → o' = o := by
  constructor
  · intro o
    unfold epochPlus
    split <;> simp
  · intro o a o' h
    unfold epochPlus at h
    split at h
    · cases h; rfl
    · cases h

theorem BStops.deBinDur {lo : Nat} (hd : d.length ≤ isizeMax) : BStops d lo 0 (deBinDur chk d) := by
  refine ((BStops.readPrim 8 (by decide) hd).bind fun s => ?_).weaken (Nat.le_refl _) (Nat.zero_le _)
  refine ((BStops.readPrim 4 (by decide) hd).bind fun n => ?_).weaken (Nat.le_refl _) (Nat.zero_le _)
  show BStops d _ 0 (if leVal n > 1000000000 then (M.get >>= fun o => M.throw ⟨o, .range⟩ : BinM (Nat × Nat)) else durNew (leVal s) (leVal n))
  split
  · exact .const (fun o => by rw [M.bind_ok (M.get_apply o)]; simp) (fun o a o' e => by cases e)
  · exact .const durNew_const.1 durNew_const.2

theorem BStops.repeatM {α : Type} {lo : Nat} {x : BinM α} (h : BStops d lo 0 x) (n : Nat) : BStops d lo 0 (repeatM x n) := by
  induction n with
  | zero => exact .pure _
  | succ n ih => exact h.bind fun a => ih.bind fun as => .pure _

theorem BStops.insertLoop {lo : Nat} {x : BinM Val} (h : BStops d lo 0 x) (c : Coll) (n : Nat) (acc : List Val) :
    BStops d lo 0 (insertLoop env c x n acc) := by
  induction n generalizing acc with
  | zero => exact .pure _
  | succ n ih => exact h.bind fun a => ih _

theorem BStops.deTys {lo : Nat} {f : Ty → BinM Val} (ts : List Ty) (h : ∀ t ∈ ts, BStops d lo 0 (f t)) : BStops d lo 0 (deTys f ts) := by
  induction ts with
  | nil => exact .pure _
  | cons t ts ih => exact (h t (by simp)).bind fun a => (ih fun t ht => h t (by simp [ht])).bind fun as => .pure _

theorem BStops.deFields {lo : Nat} {f : Ty → BinM Val} (us : Bool) (fs : List Field)
    (h : ∀ g ∈ fs, ¬ (us = true ∧ g.skip = true) → BStops d lo 0 (f g.ty)) : BStops d lo 0 (deBinFields f us fs) := by
  induction fs with
  | nil => exact .pure _
  | cons g fs ih =>
    have e : deBinFields f us (g :: fs) = ((if us = true ∧ g.skip = true then Pure.pure g.tyDefault else f g.ty : BinM Val) >>= fun a =>
        deBinFields f us fs >>= fun as => Pure.pure (a :: as)) := by
      rw [deBinFields]; split <;> rfl
    rw [e]
    refine BStops.bind ?_ fun a => (ih fun g hg => h g (by simp [hg])).bind fun as => .pure _
    by_cases hc : us = true ∧ g.skip = true
    · rw [if_pos hc]; exact .pure _
    · rw [if_neg hc]; exact h g (by simp) hc

theorem BStops.fuel {lo n m : Nat} {t : Ty} (h : BStops d lo 0 (deBin env chk d n t)) (hm : n ≤ m) : BStops d lo 0 (deBin env chk d m t) := by
  intro o hl ho
  obtain ⟨h1, h2⟩ := h o hl ho
  rw [deBin_mono env chk d hm t o h1]
  exact ⟨h1, h2⟩

/-- `rank` decreases along the components read without an input byte (see `Inhabitable`). -/
structure BinRank (env : Env) (rank : Ty → Nat) : Prop where
  box : ∀ t, rank t < rank (.box t)
  arr : ∀ t n, rank t < rank (.array t n)
  pair : ∀ a b, rank a < rank (.pair a b) ∧ rank b < rank (.pair a b)
  triple : ∀ a b c, rank a < rank (.triple a b c) ∧ rank b < rank (.triple a b c) ∧ rank c < rank (.triple a b c)
  quad : ∀ a b c d, rank a < rank (.quad a b c d) ∧ rank b < rank (.quad a b c d) ∧ rank c < rank (.quad a b c d) ∧
      rank d < rank (.quad a b c d)
  struct : ∀ (i : Nat) fs cd nul, env.defs[i]? = some (.struct fs cd nul) → ∀ f ∈ fs, f.skip = false → rank f.ty < rank (.named i)
  tuple : ∀ (i : Nat) ts tr, env.defs[i]? = some (.tuple ts tr) → ∀ t ∈ ts, rank t < rank (.named i)
  prox : ∀ (i : Nat) px, env.proxies[i]? = some px → rank px.ty < rank (.proxied i)

/-- With `K` bounding the ranks, `K + 1` nested calls per byte left are enough. -/
theorem deBin_within (hp : BinProg env) {rank : Ty → Nat} (R : BinRank env rank) {S : Ty → Prop} (hS : PartsIn env S) {K : Nat}
    (hK : ∀ u, S u → rank u ≤ K) (hd : d.length ≤ isizeMax) : ∀ (k lo : Nat), d.length < lo + k →
    ∀ t, BinWf env t → S t → BStops d lo 0 (deBin env chk d ((K + 1) * k) t) := by
  intro k
  induction k with
  | zero =>
    intro lo hlo t _ _
    exact fun o h1 h2 => by omega
  | succ k ihk =>
    intro lo hlo
    generalize hc : (K + 1) * k = c at ihk
    have hc' : (K + 1) * (k + 1) = c + (K + 1) := by rw [Nat.mul_succ, hc]
    have later : ∀ t, BinWf env t → S t → ∀ n, c ≤ n → ∀ j, 1 ≤ j → BStops d (lo + j) 0 (deBin env chk d n t) := by
      intro t ht hs n hn j hj
      exact ((ihk (lo + 1) (by omega) t ht hs).fuel hn).weaken (by omega) (Nat.le_refl _)
    suffices inner : ∀ t, BinWf env t → S t → BStops d lo 0 (deBin env chk d (c + rank t + 1) t) from
      fun t ht hs => (inner t ht hs).fuel (by have := hK t hs; omega)
    intro t
    induction hr : rank t using Nat.strongRecOn generalizing t with
    | ind r ih =>
    subst hr
    intro ht hs
    have same : ∀ t', rank t' < rank t → BinWf env t' → S t' → BStops d lo 0 (deBin env chk d (c + rank t) t') := by
      intro t' hlt ht' hs'
      exact (ih _ hlt t' rfl ht' hs').fuel (by omega)
    have hpart := hS t hs
    have one : ∀ {α : Type} {x : BinM α} {j : Nat}, BStops d lo j x → BStops d lo 0 x := fun h => h.weaken (Nat.le_refl _) (Nat.zero_le _)
    have prim : ∀ {len : Nat} {g : List Byte → Val}, len < 2 ^ 63 →
        BStops d lo 0 (NS.readPrim chk d len >>= fun bs => Pure.pure (g bs)) := fun hl =>
      one ((BStops.readPrim _ hl hd).bind fun _ => .pure _)
    generalize hn0 : c + rank t = n at same
    have hcn : c ≤ n := by omega
    cases t with
    | unit => exact .pure _
    | bool => exact prim (len := 1) (by decide)
    | int kd =>
      cases kd <;> first | exact prim (by decide) | exact one ((BStops.readUsize hd).bind fun _ => .pure _)
    | f32 => exact prim (len := 4) (by decide)
    | f64 => exact prim (len := 8) (by decide)
    | str => exact (BStops.deBinStr hd).bind fun _ => .pure _
    | dur => exact (BStops.deBinDur hd).bind fun _ => .pure _
    | time =>
      refine one ((BStops.readPrim 1 (by decide) hd).bind fun tag => ?_)
      split
      · exact (BStops.deBinDur hd).bind fun r => .const epochPlus_const.1 epochPlus_const.2
      · exact .pure _
    | option t =>
      refine one ((BStops.readPrim 1 (by decide) hd).bind fun tag => ?_)
      split
      · exact (later t ht (hpart t (by simp [Ty.parts])) n hcn 1 (Nat.le_refl _)).bind fun _ => .pure _
      · exact .pure _
    | vec t =>
      refine one ((BStops.readUsize hd).bind fun len => ?_)
      refine BStops.bind (k := 0) (.const ?_ ?_) fun _ =>
        ((later t ht (hpart t (by simp [Ty.parts])) n hcn 8 (by decide)).repeatM len).bind fun _ => .pure _
      · intro o; unfold vecCap; split <;> simp
      · intro o a o' h; unfold vecCap at h; split at h <;> cases h; rfl
    | linked t =>
      exact one ((BStops.readUsize hd).bind fun len =>
        ((later t ht (hpart t (by simp [Ty.parts])) n hcn 8 (by decide)).repeatM len).bind fun _ => .pure _)
    | hset t =>
      refine one ((BStops.readUsize hd).bind fun len => ?_)
      refine BStops.bind (k := 0) (.const ?_ ?_) fun _ =>
        ((later t ht (hpart t (by simp [Ty.parts])) n hcn 8 (by decide)).insertLoop _ len _).bind fun _ => .pure _
      · intro o; unfold hashCap; split <;> simp
      · intro o a o' h; unfold hashCap at h; split at h <;> cases h; rfl
    | bset t =>
      exact one ((BStops.readUsize hd).bind fun len =>
        ((later t ht (hpart t (by simp [Ty.parts])) n hcn 8 (by decide)).insertLoop _ len _).bind fun _ => .pure _)
    | array t m => exact ((same t (R.arr t m) ht (hpart t (by simp [Ty.parts]))).repeatM m).bind fun _ => .pure _
    | pair a b =>
      refine (BStops.deTys [a, b] fun t hm => ?_).bind fun _ => .pure _
      have hsu := hpart t (by simpa [Ty.parts] using hm)
      simp only [List.mem_cons, List.not_mem_nil, or_false] at hm
      rcases hm with rfl | rfl
      · exact same _ (R.pair _ _).1 ht.1 hsu
      · exact same _ (R.pair _ _).2 ht.2 hsu
    | triple a b e =>
      refine (BStops.deTys [a, b, e] fun t hm => ?_).bind fun _ => .pure _
      have hsu := hpart t (by simpa [Ty.parts] using hm)
      simp only [List.mem_cons, List.not_mem_nil, or_false] at hm
      rcases hm with rfl | rfl | rfl
      · exact same _ (R.triple _ _ _).1 ht.1 hsu
      · exact same _ (R.triple _ _ _).2.1 ht.2.1 hsu
      · exact same _ (R.triple _ _ _).2.2 ht.2.2 hsu
    | quad a b e f =>
      refine (BStops.deTys [a, b, e, f] fun t hm => ?_).bind fun _ => .pure _
      have hsu := hpart t (by simpa [Ty.parts] using hm)
      simp only [List.mem_cons, List.not_mem_nil, or_false] at hm
      rcases hm with rfl | rfl | rfl | rfl
      · exact same _ (R.quad _ _ _ _).1 ht.1 hsu
      · exact same _ (R.quad _ _ _ _).2.1 ht.2.1 hsu
      · exact same _ (R.quad _ _ _ _).2.2.1 ht.2.2.1 hsu
      · exact same _ (R.quad _ _ _ _).2.2.2 ht.2.2.2 hsu
    | hmap a b =>
      have ha := later a ht.1 (hpart a (by simp [Ty.parts])) n hcn 8 (by decide)
      have hb := later b ht.2 (hpart b (by simp [Ty.parts])) n hcn 8 (by decide)
      refine one ((BStops.readUsize hd).bind fun len => ?_)
      refine BStops.bind (k := 0) (.const ?_ ?_) fun _ => (BStops.insertLoop (ha.bind fun _ =>
        hb.bind fun _ => .pure _) _ len _).bind fun _ => .pure _
      · intro o; unfold hashCap; split <;> simp
      · intro o a o' h; unfold hashCap at h; split at h <;> cases h; rfl
    | bmap a b =>
      have ha := later a ht.1 (hpart a (by simp [Ty.parts])) n hcn 8 (by decide)
      have hb := later b ht.2 (hpart b (by simp [Ty.parts])) n hcn 8 (by decide)
      refine one ((BStops.readUsize hd).bind fun len => ?_)
      exact (BStops.insertLoop (ha.bind fun _ => hb.bind fun _ => .pure _) _ len _).bind fun _ => .pure _
    | box t => exact (same t (R.box t) ht (hpart t (by simp [Ty.parts]))).bind fun _ => .pure _
    | named i =>
      obtain ⟨df, hdef⟩ : ∃ df, env.defs[i]? = some df := ⟨_, List.getElem?_eq_getElem ht⟩
      have hmem : df ∈ env.defs := List.mem_of_getElem? hdef
      have hpt : ∀ u ∈ df.types, S u := fun u hu => hpart u (by simp only [Ty.parts, hdef, ← Def.types_eq_tys]; exact hu)
      cases df with
      | struct fs cd nul =>
        rw [deBin, hdef]
        refine (BStops.deFields true fs fun g hg hs => ?_).bind fun _ => .pure _
        exact same _ (R.struct i fs cd nul hdef g hg (by simpa using hs)) (hp.defs _ hmem _ (List.mem_map_of_mem hg))
          (hpt _ (List.mem_map_of_mem hg))
      | tuple ts tr =>
        rw [deBin, hdef]
        exact (BStops.deTys _ fun t hm => same _ (R.tuple i ts tr hdef t hm) (hp.defs _ hmem _ hm) (hpt _ hm)).bind fun _ => .pure _
      | enum vars =>
        have hn : ∀ t ∈ (Def.enum vars).types, BStops d (lo + 2) 0 (deBin env chk d n t) := fun t hm =>
          later t (hp.defs _ hmem _ hm) (hpt _ hm) n hcn 2 (by decide)
        have e : deBin env chk d (n + 1) (.named i) = (NS.readPrim chk d 2 >>= enumRest (deBin env chk d n) vars) := by
          rw [deBin, hdef]; rfl
        rw [e]
        refine one ((BStops.readPrim 2 (by decide) hd).bind fun id => ?_)
        unfold enumRest
        cases hv : vars[leVal id]? with
        | none => exact .const (fun o => by simp) (fun o a o' h => by cases h)
        | some var =>
          have hvm : var ∈ vars := List.mem_of_getElem? hv
          refine BStops.bind (k := 0) ?_ fun _ => .pure _
          have sub : ∀ t : Ty, t ∈ (match var.shape with
              | .unit => []
              | .tuple ts => ts
              | .named fs => fs.map Field.ty : List Ty) → t ∈ (Def.enum vars).types := fun t h => List.mem_flatMap.2 ⟨var, hvm, h⟩
          cases hs : var.shape with
          | unit => exact .pure _
          | tuple ts => exact BStops.deTys _ fun t h => hn t (sub t (by rw [hs]; exact h))
          | named fs => exact BStops.deFields false fs fun g hg _ => hn _ (sub _ (by rw [hs]; exact List.mem_map_of_mem hg))
    | proxied i =>
      obtain ⟨px, hdef⟩ : ∃ px, env.proxies[i]? = some px := ⟨_, List.getElem?_eq_getElem ht⟩
      rw [deBin, hdef]
      exact (same _ (R.prox i px hdef) (hp.proxies _ (List.mem_of_getElem? hdef)) (hpart _ (by simp [Ty.parts, hdef]))).bind fun _ => .pure _

theorem Inhabitable.rank (h : Inhabitable env) : ∃ rank, BinRank env rank := by
  obtain ⟨rank, h1, h2, h3, h4, h5, h6, h7, h8⟩ := h
  exact ⟨rank, h1, h2, h3, h4, h5, h6, h7, h8⟩

/-- A bound for the whole program. -/
theorem deBin_linear (hp : BinProg env) (hi : Inhabitable env) {t : Ty} (ht : BinWf env t) : ∃ K, 0 < K ∧ ∀ chk (d : List Byte),
    d.length ≤ isizeMax → ∀ k lo, d.length < lo + k → BStops d lo 0 (deBin env chk d (K * k) t) := by
  obtain ⟨rank, R⟩ := hi.rank
  obtain ⟨K, hK⟩ := bounded_on rank (progTys env t)
  exact ⟨K + 1, Nat.succ_pos _, fun chk d hd k lo h =>
    deBin_within hp R (progTys_closed env t) hK hd k lo h t ht (progTys_self env t)⟩

theorem deBin_stops (hp : BinProg env) (hi : Inhabitable env) (hd : d.length ≤ isizeMax) (k lo : Nat) (h : d.length < lo + k)
    (t : Ty) (ht : BinWf env t) : ∃ n, BStops d lo 0 (deBin env chk d n t) := by
  obtain ⟨K, _, hK⟩ := deBin_linear hp hi ht
  exact ⟨_, hK chk d hd k lo h⟩

end NS
