import Verif.Lemmas.BinMore
import Verif.Lemmas.LittleEndian
import Verif.Spec.BinPanic
/-! Where reading bytes panics (lemmas for C05). -/
set_option linter.unusedSimpArgs false
set_option linter.unusedVariables false
namespace NS
variable {env : Env} {chk : Bool} {Q : List Byte → Prop}

/-- If the computation panics then the input is in `Q`. -/
def PanicIn {α : Type} (Q : List Byte → Prop) (x : List Byte → BinM α) : Prop :=
  ∀ d o, d.length ≤ isizeMax → o ≤ d.length → x d o = .panic → Q d

theorem PanicIn.of_no {α : Type} {x : List Byte → BinM α} (h : NoPanic x) : PanicIn Q x :=
  fun d o hd ho hp => absurd hp (h d o hd ho)

theorem PanicIn.pure {α : Type} (a : α) : PanicIn Q (fun _ => (Pure.pure a : BinM α)) := .of_no (.pure a)

theorem PanicIn.mono {α : Type} {P : List Byte → Prop} {x : List Byte → BinM α} (h : ∀ d, P d → Q d)
    (hx : PanicIn P x) : PanicIn Q x := fun d o hd ho hp => h d (hx d o hd ho hp)

theorem PanicIn.bind {α β : Type} {x : List Byte → BinM α} {f : α → List Byte → BinM β}
    (hl : Local x) (hx : PanicIn Q x) (hf : ∀ a, PanicIn Q (f a)) :
    PanicIn Q (fun d => x d >>= fun a => f a d) := by
  intro d o hd ho h
  simp only [M.bind_def] at h
  cases hxo : x d o with
  | ok a o1 =>
    rw [hxo] at h
    exact hf a d o1 hd ((hl d o a o1 hd hxo).2.1 ho) h
  | err e s => rw [hxo] at h; simp at h
  | panic => exact hx d o hd ho hxo
  | oof => rw [hxo] at h; simp at h

theorem PanicIn.repeatM {α : Type} {x : List Byte → BinM α} (hl : Local x) (hx : PanicIn Q x) (n : Nat) :
    PanicIn Q (fun d => repeatM (x d) n) := by
  induction n with
  | zero => exact PanicIn.pure []
  | succ n ih =>
    exact PanicIn.bind hl hx fun a => PanicIn.bind (Local.repeatM hl n) ih fun as => PanicIn.pure _

theorem PanicIn.insertLoop {x : List Byte → BinM Val} (hl : Local x) (hx : PanicIn Q x) (c : Coll)
    (n : Nat) (acc : List Val) : PanicIn Q (fun d => insertLoop env c (x d) n acc) := by
  induction n generalizing acc with
  | zero => exact PanicIn.pure acc
  | succ n ih => exact PanicIn.bind hl hx fun a => ih _

theorem PanicIn.deTys {f : List Byte → Ty → BinM Val} (hl : ∀ t, Local (fun d => f d t))
    (ts : List Ty) (hf : ∀ t ∈ ts, PanicIn Q (fun d => f d t)) :
    PanicIn Q (fun d => deTys (f d) ts) := by
  induction ts with
  | nil => exact PanicIn.pure []
  | cons t ts ih =>
    exact PanicIn.bind (hl t) (hf t (by simp)) fun a =>
      PanicIn.bind (Local.deTys hl ts) (ih fun u hu => hf u (by simp [hu])) fun as => PanicIn.pure _

theorem PanicIn.deFields {f : List Byte → Ty → BinM Val} (hl : ∀ t, Local (fun d => f d t))
    (us : Bool) (fs : List Field) (hf : ∀ g ∈ fs, PanicIn Q (fun d => f d g.ty)) :
    PanicIn Q (fun d => deBinFields (f d) us fs) := by
  induction fs with
  | nil => exact PanicIn.pure []
  | cons t ts ih =>
    have ih := ih fun u hu => hf u (by simp [hu])
    simp only [deBinFields]
    by_cases h : us ∧ t.skip
    · simp only [if_pos h]
      exact PanicIn.bind (Local.pure _) (PanicIn.pure _) fun a =>
        PanicIn.bind (Local.deFields hl us ts) ih fun as => PanicIn.pure _
    · simp only [if_neg h]
      exact PanicIn.bind (hl t.ty) (hf t (by simp)) fun a =>
        PanicIn.bind (Local.deFields hl us ts) ih fun as => PanicIn.pure _

/-- A length, a check of that length, and then something else. -/
theorem PanicIn.sized {α : Type} {cap : Nat → BinM Unit} {x : Nat → List Byte → BinM α}
    (hcap : ∀ len o, cap len o = .ok () o ∨ cap len o = .panic)
    (hq : ∀ d o, o + 8 ≤ d.length → cap (lenAt d o) (o + 8) = .panic → Q d)
    (hx : ∀ len, PanicIn Q (x len)) :
    PanicIn Q (fun d => readUsize chk d >>= fun len => cap len >>= fun _ => x len d) := by
  intro d o hd ho h
  by_cases h8 : o + 8 ≤ d.length
  · simp only [M.bind_ok (readUsize_eq h8 hd)] at h
    rw [← lenAt_eq] at h
    rcases hcap (lenAt d o) (o + 8) with hc | hc
    · rw [M.bind_ok hc] at h
      exact hx _ d (o + 8) hd h8 h
    · exact hq d o h8 hc
  · simp only [M.bind_def, readUsize_short (Nat.lt_of_not_le h8) ho hd] at h
    simp at h

theorem take8_lt (d : List Byte) (o : Nat) : leVal ((d.drop o).take 8) < 2 ^ 64 := by
  have h1 := leVal_lt ((d.drop o).take 8)
  have h2 : ((d.drop o).take 8).length ≤ 8 := by rw [List.length_take]; omega
  have h3 : 256 ^ ((d.drop o).take 8).length ≤ 256 ^ 8 := Nat.pow_le_pow_right (by decide) h2
  omega

theorem strBody_panic_true {d : List Byte} {len o : Nat} (hov : ¬ o + len < 2 ^ 64) :
    strBody true len d o = .panic := by
  have ha : ∀ s, addUsize true o len s = .panic := by
    intro s; rw [addUsize, if_neg hov, if_pos rfl]
  simp only [strBody, M.bind_def, M.get_apply, ha]

theorem addUsize_wrap {a b : Nat} (hov : ¬ a + b < 2 ^ 64) (ha : a < 2 ^ 64) (hb : b < 2 ^ 64)
    (s : Nat) : addUsize false a b s = .ok (a + b - 2 ^ 64) s := by
  have hm : (a + b) % 2 ^ 64 = a + b - 2 ^ 64 := by
    rw [Nat.mod_eq_sub_mod (Nat.le_of_not_lt hov), Nat.mod_eq_of_lt (by omega)]
  rw [addUsize, if_neg hov, if_neg (by simp), hm]

theorem strBody_wrap {d : List Byte} {len o : Nat} (hov : ¬ o + len < 2 ^ 64) (ho : o < 2 ^ 64)
    (hl : len < 2 ^ 64) :
    strBody false len d o =
      if o + len - 2 ^ 64 ≤ d.length then .panic else .err ⟨o, .length 1 d.length⟩ o := by
  have ha := addUsize_wrap hov ho hl
  simp only [strBody, M.bind_def, M.get_apply, ha]
  by_cases hw : o + len - 2 ^ 64 ≤ d.length
  · rw [if_neg (by omega), if_pos hw]
    simp only [M.bind_def, ha, slice]
    rw [if_neg (by omega)]
  · rw [if_pos (by omega), if_neg hw]; simp only [M.throw_apply]

/-- What reading a `String` at `o` does when its end overflows. -/
theorem deBinStr_panic_iff (d : List Byte) (o : Nat) (hd : d.length ≤ isizeMax) (ho : o ≤ d.length) :
    deBinStr chk d o = .panic ↔ PanicsAt env chk d .str o := by
  simp only [PanicsAt]
  by_cases h8 : o + 8 ≤ d.length
  case neg =>
    simp only [h8, false_and, iff_false]
    simp only [deBinStr_eq_body, M.bind_def, readUsize_short (Nat.lt_of_not_le h8) ho hd]
    simp
  simp only [h8, true_and, deBinStr_eq_body, M.bind_ok (readUsize_eq h8 hd)]
  rw [lenAt_eq]
  have hlt := take8_lt d o
  generalize leVal ((d.drop o).take 8) = len at *
  have hd' : d.length ≤ 2 ^ 63 - 1 := hd
  by_cases hov : o + 8 + len < 2 ^ 64
  · have : strBody chk len d (o + 8) ≠ .panic := by
      by_cases hc : o + 8 + len ≤ d.length
      · rw [strBody_eq hc hd]
        split <;> simp
      · rw [strBody_short (by omega) hov]; simp
    exact ⟨fun h => absurd h this, fun h => absurd hov (Nat.not_lt.2 h.1)⟩
  · cases chk with
    | true => exact ⟨fun _ => ⟨Nat.le_of_not_lt hov, .inl rfl⟩, fun _ => strBody_panic_true hov⟩
    | false =>
      rw [strBody_wrap hov (by omega) hlt]
      by_cases hw : o + 8 + len - 2 ^ 64 ≤ d.length
      · rw [if_pos hw]; exact ⟨fun _ => ⟨Nat.le_of_not_lt hov, .inr hw⟩, fun _ => rfl⟩
      · rw [if_neg hw]
        exact ⟨fun h => by simp at h, fun h => h.2.elim (fun h => by simp at h) fun h => absurd h hw⟩

theorem u32At_eq (d : List Byte) (o : Nat) : u32At d o = leVal ((d.drop o).take 4) := littleEndian_eq _

/-- What reading a `Duration` does. -/
theorem deBinDur_eq (d : List Byte) (o : Nat) (hd : d.length ≤ isizeMax) (ho : o ≤ d.length) :
    (∃ e s, deBinDur chk d o = .err e s ∧ ¬ (o + 12 ≤ d.length ∧ u32At d (o + 8) ≤ 1000000000)) ∨
    (o + 12 ≤ d.length ∧ u32At d (o + 8) ≤ 1000000000 ∧
      deBinDur chk d o = durNew (lenAt d o) (u32At d (o + 8)) (o + 12)) := by
  unfold deBinDur
  by_cases h8 : o + 8 ≤ d.length
  case neg =>
    refine .inl ⟨_, _, by simp only [M.bind_def, readPrim_short (Nat.lt_of_not_le h8) ho (by decide : 8 < 2 ^ 63) hd]; rfl, by omega⟩
  rw [M.bind_ok (readPrim_eq h8 hd)]
  by_cases h12 : o + 8 + 4 ≤ d.length
  case neg =>
    refine .inl ⟨_, _, by simp only [M.bind_def, readPrim_short (Nat.lt_of_not_le h12) h8 (by decide : 4 < 2 ^ 63) hd]; rfl, by omega⟩
  rw [M.bind_ok (readPrim_eq h12 hd), ← lenAt_eq, ← u32At_eq]
  by_cases hn : u32At d (o + 8) > 1000000000
  · rw [if_pos hn]
    exact .inl ⟨_, _, rfl, by omega⟩
  · rw [if_neg hn]
    exact .inr ⟨by omega, by omega, rfl⟩

theorem lenAt_lt (d : List Byte) (o : Nat) : lenAt d o < 2 ^ 64 := by rw [lenAt_eq]; exact take8_lt d o

theorem deBinDur_panic_iff (d : List Byte) (o : Nat) (hd : d.length ≤ isizeMax) (ho : o ≤ d.length) :
    deBinDur chk d o = .panic ↔ PanicsAt env chk d .dur o := by
  simp only [PanicsAt]
  have hlt := lenAt_lt d o
  rcases deBinDur_eq (chk := chk) d o hd ho with ⟨e, s, he, hn⟩ | ⟨h12, hle, he⟩
  · rw [he]
    refine ⟨fun h => by simp at h, fun h => absurd ⟨h.1, by omega⟩ hn⟩
  · rw [he]
    simp only [durNew]
    generalize u32At d (o + 8) = ns at *
    generalize lenAt d o = sc at *
    have hu : u64Max = 2 ^ 64 - 1 := rfl
    by_cases h1 : ns < 1000000000
    · rw [if_pos h1]
      refine ⟨fun h => by simp at h, fun h => by omega⟩
    · obtain rfl : ns = 1000000000 := by omega
      rw [if_neg h1]
      by_cases h2 : sc + 1000000000 / 1000000000 ≤ u64Max
      · rw [if_pos h2]
        refine ⟨fun h => by simp at h, fun h => by omega⟩
      · rw [if_neg h2]
        exact ⟨fun _ => ⟨h12, by omega, rfl⟩, fun _ => rfl⟩

/-- What reading a `SystemTime` at `o` does. -/
theorem deBinTime_panic_iff (d : List Byte) (o n : Nat) (hd : d.length ≤ isizeMax) (ho : o ≤ d.length) :
    deBin env chk d (n + 1) .time o = .panic ↔ PanicsAt env chk d .time o := by
  simp only [deBin, PanicsAt]
  by_cases h1 : o + 1 ≤ d.length
  case neg =>
    simp only [M.bind_def, readPrim_short (Nat.lt_of_not_le h1) ho (by decide : 1 < 2 ^ 63) hd]
    refine ⟨fun h => by simp at h, fun h => by omega⟩
  rw [M.bind_ok (readPrim_eq h1 hd)]
  have hb : leVal ((d.drop o).take 1) = 1 ↔ d[o]? = some 1 := by
    have hlt : o < d.length := by omega
    rw [List.drop_eq_getElem_cons hlt, List.take_succ_cons, List.take_zero, List.getElem?_eq_getElem hlt]
    simp only [leVal, Option.some.injEq, Nat.mul_zero, Nat.add_zero]
    constructor
    · intro h; exact UInt8.toNat_inj.1 h
    · intro h; rw [h]; rfl
  by_cases ht : leVal ((d.drop o).take 1) = 1
  case neg =>
    rw [if_neg ht]
    refine ⟨fun h => by simp at h, fun h => absurd (hb.2 h.2.1) ht⟩
  rw [if_pos ht]
  have hlt := lenAt_lt d (o + 1)
  have hu : u64Max = 2 ^ 64 - 1 := rfl
  rcases deBinDur_eq (chk := chk) d (o + 1) hd h1 with ⟨e, s, he, hn⟩ | ⟨h12, hle, he⟩
  · simp only [M.bind_def, he]
    refine ⟨fun h => by simp at h, fun h => absurd ⟨by omega, h.2.2.1⟩ hn⟩
  · have e9 : o + 1 + 8 = o + 9 := by omega
    rw [e9] at hle he
    simp only [M.bind_def, he]
    simp only [durNew]
    generalize u32At d (o + 9) = ns at *
    generalize lenAt d (o + 1) = sc at *
    by_cases h1 : ns < 1000000000
    · rw [if_pos h1]
      simp only [epochPlus]
      by_cases h63 : sc < 2 ^ 63
      · rw [if_pos h63]; exact ⟨fun h => by simp at h, fun h => by omega⟩
      · rw [if_neg h63]; exact ⟨fun _ => ⟨by omega, hb.1 ht, hle, by omega⟩, fun _ => rfl⟩
    · obtain rfl : ns = 1000000000 := by omega
      rw [if_neg h1]
      by_cases h2 : sc + 1000000000 / 1000000000 ≤ u64Max
      · rw [if_pos h2]
        simp only [epochPlus]
        by_cases h63 : sc + 1000000000 / 1000000000 < 2 ^ 63
        · rw [if_pos h63]; exact ⟨fun h => by simp at h, fun h => by omega⟩
        · rw [if_neg h63]; exact ⟨fun _ => ⟨by omega, hb.1 ht, hle, by omega⟩, fun _ => rfl⟩
      · rw [if_neg h2]
        exact ⟨fun _ => ⟨by omega, hb.1 ht, hle, by omega⟩, fun _ => rfl⟩

/-- The inputs on which reading a `t` may panic. -/
def Culprit (env : Env) (chk : Bool) (t : Ty) (d : List Byte) : Prop :=
  ∃ u p, Occurs env t u ∧ PanicsAt env chk d u p

theorem Culprit.step {t u : Ty} {d : List Byte} (h : Component env t u) (hc : Culprit env chk u d) :
    Culprit env chk t d := by
  obtain ⟨w, p, ho, hp⟩ := hc
  exact ⟨w, p, .step h ho, hp⟩

theorem Culprit.here {t : Ty} {p : Nat} {d : List Byte} (hp : PanicsAt env chk d t p) : Culprit env chk t d :=
  ⟨t, p, .refl t, hp⟩

theorem PanicIn.deBin (n : Nat) (t : Ty) : PanicIn (Culprit env chk t) (fun d => deBin env chk d n t) := by
  induction n generalizing t with
  | zero => intro d o _ _; simp [NS.deBin]
  | succ n ih =>
    have hL := fun t => Local.deBin (env := env) (chk := chk) n t
    have ihc : ∀ {u}, Component env t u → PanicIn (Culprit env chk t) (fun d => NS.deBin env chk d n u) :=
      fun h => PanicIn.mono (fun d hd => hd.step h) (ih _)
    cases t with
    | unit => exact PanicIn.pure _
    | bool => exact .of_no <| NoPanic.bind (Local.readPrim 1 (by decide)) (NoPanic.readPrim 1 (by decide)) fun _ => NoPanic.pure _
    | int k =>
      cases k
      case usize => exact .of_no <| NoPanic.bind Local.readUsize NoPanic.readUsize fun _ => NoPanic.pure _
      all_goals exact .of_no <| NoPanic.bind (Local.readPrim _ (by decide)) (NoPanic.readPrim _ (by decide)) fun _ => NoPanic.pure _
    | f32 => exact .of_no <| NoPanic.bind (Local.readPrim _ (by decide)) (NoPanic.readPrim _ (by decide)) fun _ => NoPanic.pure _
    | f64 => exact .of_no <| NoPanic.bind (Local.readPrim _ (by decide)) (NoPanic.readPrim _ (by decide)) fun _ => NoPanic.pure _
    | str =>
      refine PanicIn.bind Local.deBinStr ?_ fun _ => PanicIn.pure _
      intro d o hd ho h
      exact .here ((deBinStr_panic_iff d o hd ho).1 h)
    | dur =>
      refine PanicIn.bind Local.deBinDur ?_ fun _ => PanicIn.pure _
      intro d o hd ho h
      exact .here ((deBinDur_panic_iff d o hd ho).1 h)
    | time =>
      intro d o hd ho h
      exact .here ((deBinTime_panic_iff d o n hd ho).1 h)
    | vec t =>
      refine PanicIn.sized (cap := vecCap env t) ?_ ?_ fun len =>
        PanicIn.bind (Local.repeatM (hL t) len) (PanicIn.repeatM (hL t) (ihc rfl) len) fun _ => PanicIn.pure _
      · intro len o; simp only [vecCap]; split <;> simp
      · intro d o h8 h
        refine .here (p := o) ⟨h8, ?_⟩
        simp only [vecCap] at h
        split at h
        · simp at h
        · omega
    | hset t =>
      refine PanicIn.sized (cap := hashCap env (env.memSize t)) ?_ ?_ fun len =>
        PanicIn.bind (Local.insertLoop (hL t) _ len _) (PanicIn.insertLoop (hL t) (ihc rfl) _ len _) fun _ => PanicIn.pure _
      · intro len o; simp only [hashCap]; split <;> simp
      · intro d o h8 h
        refine .here (p := o) ⟨h8, ?_⟩
        simp only [hashCap] at h
        split at h
        · assumption
        · simp at h
    | hmap k v =>
      have hEl := Local.entryM (hL k) (hL v)
      have hE : PanicIn (Culprit env chk (.hmap k v)) (fun d => entryM (NS.deBin env chk d n k) (NS.deBin env chk d n v)) :=
        PanicIn.bind (hL k) (ihc (.inl rfl)) fun _ => PanicIn.bind (hL v) (ihc (.inr rfl)) fun _ => PanicIn.pure _
      refine PanicIn.sized (cap := hashCap env (env.memSize k + env.memSize v)) ?_ ?_ fun len =>
        PanicIn.bind (Local.insertLoop hEl _ len _) (PanicIn.insertLoop hEl hE _ len _) fun _ => PanicIn.pure _
      · intro len o; simp only [hashCap]; split <;> simp
      · intro d o h8 h
        refine .here (p := o) ⟨h8, ?_⟩
        simp only [hashCap] at h
        split at h
        · assumption
        · simp at h
    | option t =>
      refine PanicIn.bind (Local.readPrim 1 (by decide)) (.of_no <| NoPanic.readPrim 1 (by decide)) fun tag => ?_
      by_cases hc : leVal tag = 1
      · simp only [if_pos hc]
        exact PanicIn.bind (hL t) (ihc rfl) fun _ => PanicIn.pure _
      · simp only [if_neg hc]; exact PanicIn.pure _
    | linked t =>
      exact PanicIn.bind Local.readUsize (.of_no NoPanic.readUsize) fun len =>
        PanicIn.bind (Local.repeatM (hL t) len) (PanicIn.repeatM (hL t) (ihc rfl) len) fun _ => PanicIn.pure _
    | bset t =>
      exact PanicIn.bind Local.readUsize (.of_no NoPanic.readUsize) fun len =>
        PanicIn.bind (Local.insertLoop (hL t) _ len _) (PanicIn.insertLoop (hL t) (ihc rfl) _ len _)
          fun _ => PanicIn.pure _
    | array t len =>
      exact PanicIn.bind (Local.repeatM (hL t) len) (PanicIn.repeatM (hL t) (ihc rfl) len) fun _ => PanicIn.pure _
    | pair a b =>
      exact PanicIn.bind (Local.deTys hL _) (PanicIn.deTys hL _ (by
        intro t ht; simp at ht; exact ihc ht)) fun _ => PanicIn.pure _
    | triple a b c =>
      exact PanicIn.bind (Local.deTys hL _) (PanicIn.deTys hL _ (by
        intro t ht; simp at ht; exact ihc ht)) fun _ => PanicIn.pure _
    | quad a b c e =>
      exact PanicIn.bind (Local.deTys hL _) (PanicIn.deTys hL _ (by
        intro t ht; simp at ht; exact ihc ht)) fun _ => PanicIn.pure _
    | bmap k v =>
      have hEl := Local.entryM (hL k) (hL v)
      have hE : PanicIn (Culprit env chk (.bmap k v)) (fun d => entryM (NS.deBin env chk d n k) (NS.deBin env chk d n v)) :=
        PanicIn.bind (hL k) (ihc (.inl rfl)) fun _ => PanicIn.bind (hL v) (ihc (.inr rfl)) fun _ => PanicIn.pure _
      exact PanicIn.bind Local.readUsize (.of_no NoPanic.readUsize) fun len =>
        PanicIn.bind (Local.insertLoop hEl _ len _) (PanicIn.insertLoop hEl hE _ len _)
          fun _ => PanicIn.pure _
    | box t => exact PanicIn.bind (hL t) (ihc rfl) fun _ => PanicIn.pure _
    | named i =>
      simp only [NS.deBin]
      cases hdf : env.defs[i]? with
      | none => intro d o _ _; simp
      | some df =>
        have ihd : ∀ {u}, u ∈ df.types → PanicIn (Culprit env chk (.named i)) (fun d => NS.deBin env chk d n u) :=
          fun h => ihc ⟨df, hdf, h⟩
        cases df with
        | struct fs _ _ =>
          refine PanicIn.bind (Local.deFields hL true fs) (PanicIn.deFields hL true fs ?_) fun _ => PanicIn.pure _
          intro g hg
          exact ihd (by simp only [Def.types]; exact List.mem_map.2 ⟨g, hg, rfl⟩)
        | tuple ts _ =>
          exact PanicIn.bind (Local.deTys hL ts) (PanicIn.deTys hL ts fun t ht => ihd ht) fun _ => PanicIn.pure _
        | enum vars =>
          refine PanicIn.bind (Local.readPrim 2 (by decide)) (.of_no <| NoPanic.readPrim 2 (by decide)) fun id => ?_
          cases hv : vars[leVal id]? with
          | none => intro d o _ _; simp
          | some var =>
            have hm : var ∈ vars := List.mem_of_getElem? hv
            obtain ⟨vn, vr, sh⟩ := var
            have hty : ∀ u, u ∈ (match sh with | .unit => [] | .tuple ts => ts | .named fs => fs.map Field.ty) →
                PanicIn (Culprit env chk (.named i)) (fun d => NS.deBin env chk d n u) := by
              intro u hu
              exact ihd (by simp only [Def.types]; exact List.mem_flatMap.2 ⟨_, hm, hu⟩)
            cases sh with
            | unit =>
              exact PanicIn.bind (Local.pure _) (PanicIn.pure _) fun _ => PanicIn.pure _
            | tuple ts =>
              exact PanicIn.bind (Local.deTys hL ts) (PanicIn.deTys hL ts fun t ht => hty t ht)
                fun _ => PanicIn.pure _
            | named fs =>
              refine PanicIn.bind (Local.deFields hL false fs) (PanicIn.deFields hL false fs ?_) fun _ => PanicIn.pure _
              intro g hg
              exact hty _ (List.mem_map.2 ⟨g, hg, rfl⟩)
    | proxied i =>
      simp only [NS.deBin]
      cases hp : env.proxies[i]? with
      | none => intro d o _ _; simp
      | some px =>
        exact PanicIn.bind (hL px.ty) (ihc ⟨px, hp, rfl⟩) fun _ => PanicIn.pure _

/-- At an offset of that kind the reader panics. -/
theorem deBin_panicsAt (n : Nat) (t : Ty) (d : List Byte) (o : Nat) (hd : d.length ≤ isizeMax) (ho : o ≤ d.length)
    (h : PanicsAt env chk d t o) : NS.deBin env chk d (n + 1) t o = .panic := by
  cases t with
  | str => simp only [NS.deBin, M.bind_def, (deBinStr_panic_iff (env := env) d o hd ho).2 h]
  | dur => simp only [NS.deBin, M.bind_def, (deBinDur_panic_iff (env := env) d o hd ho).2 h]
  | time => exact (deBinTime_panic_iff d o n hd ho).2 h
  | vec t =>
    obtain ⟨h8, h⟩ := h
    simp only [NS.deBin, M.bind_ok (readUsize_eq h8 hd), M.bind_def, vecCap]
    rw [← lenAt_eq, if_neg (by omega)]
  | hset t =>
    obtain ⟨h8, h⟩ := h
    simp only [NS.deBin, M.bind_ok (readUsize_eq h8 hd), M.bind_def, hashCap]
    rw [← lenAt_eq, if_pos h]
  | hmap k v =>
    obtain ⟨h8, h⟩ := h
    simp only [NS.deBin, M.bind_ok (readUsize_eq h8 hd), M.bind_def, hashCap]
    rw [← lenAt_eq, if_pos h]
  | _ => simp [PanicsAt] at h

end NS
