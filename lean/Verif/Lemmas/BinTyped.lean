import Verif.Lemmas.Coll
import Verif.Lemmas.BinLocal
/-! Values produced by the binary reader are well typed and exactly representable. -/
set_option linter.unusedSimpArgs false
set_option linter.unusedVariables false
namespace NS
variable {env : Env} {chk : Bool} {d : List Byte}

/-- Every successful result satisfies `P`. -/
def Post {α : Type} (x : BinM α) (P : α → Prop) : Prop := ∀ o a o', x o = .ok a o' → P a

theorem Post.pure {α : Type} {a : α} {P : α → Prop} (h : P a) : Post (Pure.pure a : BinM α) P := by
  intro o b o' hb; simp at hb; rw [← hb.1]; exact h

theorem Post.bind {α β : Type} {x : BinM α} {f : α → BinM β} {P : α → Prop} {Q : β → Prop}
    (hx : Post x P) (hf : ∀ a, P a → Post (f a) Q) : Post (x >>= f) Q := by
  intro o b o' h
  obtain ⟨a, o1, h1, h2⟩ := M.bind_eq_ok.1 h
  exact hf a (hx o a o1 h1) o1 b o' h2

theorem Post.true {α : Type} (x : BinM α) : Post x (fun _ => True) := fun _ _ _ _ => trivial

theorem Post.throw {α : Type} {e : BinErr} {P : α → Prop} : Post (M.throw e : BinM α) P := by
  intro o a o' h; simp at h

theorem Post.oof {α : Type} {P : α → Prop} : Post (M.oof : BinM α) P := by
  intro o a o' h; simp at h

theorem Post.imp {α : Type} {x : BinM α} {P Q : α → Prop} (h : Post x P) (hi : ∀ a, P a → Q a) :
    Post x Q := fun o a o' hx => hi a (h o a o' hx)

theorem Post.readPrim (len : Nat) (hl : len < 2 ^ 63) (hd : d.length ≤ isizeMax) :
    Post (readPrim chk d len) (fun bs => leVal bs < 2 ^ (8 * len)) := by
  intro o bs o' h
  obtain ⟨_, h2, rfl⟩ := readPrim_ok hl hd h
  have := leVal_lt ((d.drop o).take len)
  rw [pow256] at this
  simp only [List.length_take, List.length_drop] at this
  rwa [show min len (d.length - o) = len by omega] at this

theorem Post.readUsize (hd : d.length ≤ isizeMax) :
    Post (readUsize chk d) (fun n => n < 2 ^ 64) := by
  intro o m o' h
  obtain ⟨_, h2, rfl⟩ := readUsize_ok hd h
  have := leVal_lt ((d.drop o).take 8)
  rw [pow256] at this
  simp only [List.length_take, List.length_drop] at this
  rwa [show min 8 (d.length - o) = 8 by omega] at this

theorem Post.repeatM {α : Type} {x : BinM α} {P : α → Prop} (h : Post x P) (n : Nat) :
    Post (repeatM x n) (fun vs => vs.length = n ∧ ∀ v ∈ vs, P v) := by
  induction n with
  | zero => exact Post.pure (by simp)
  | succ n ih =>
    refine Post.bind h fun a ha => Post.bind ih fun as has => Post.pure ?_
    refine ⟨by simp [has.1], fun v hv => ?_⟩
    rcases List.mem_cons.1 hv with rfl | hv
    · exact ha
    · exact has.2 v hv

theorem Post.insertLoop {x : BinM Val} {P : Val → Prop} (h : Post x P) (c : Coll) (n : Nat) :
    Post (insertLoop env c x n []) (fun r => ∃ vs : List Val, vs.length = n ∧ (∀ v ∈ vs, P v) ∧
      r = vs.foldl (collInsert env c) []) := by
  intro o r o' hr
  rw [insertLoop_eq] at hr
  obtain ⟨vs, o1, h1, h2⟩ := M.bind_eq_ok.1 hr
  simp at h2
  have := Post.repeatM h n o vs o1 h1
  exact ⟨vs, this.1, this.2, h2.1.symm⟩

theorem Post.deBinDur (hd : d.length ≤ isizeMax) :
    Post (deBinDur chk d) (fun p => p.1 ≤ u64Max ∧ p.2 < 1000000000) := by
  refine Post.bind (Post.readPrim 8 (by decide) hd) fun s hs => ?_
  refine Post.bind (Post.readPrim 4 (by decide) hd) fun n hn => ?_
  split
  · exact Post.bind (Post.true _) fun _ _ => Post.throw
  · intro o p o' h
    unfold durNew at h
    split at h
    · simp at h; rw [← h.1]; refine ⟨?_, by assumption⟩; unfold u64Max; omega
    · split at h
      · simp at h; rw [← h.1]; refine ⟨by assumption, ?_⟩; simp; omega
      · simp at h

abbrev timeOk : Ty → Val → Prop := fun _ w => ∀ s n, w = .time s n → 0 ≤ s

theorem deTys_typed {f : Ty → BinM Val}
    (ih : ∀ t, Post (f t) (fun v => HasTy env t v ∧ BinExact env t v)) (ts : List Ty) :
    Post (deTys f ts) (fun vs => TysTy env ts vs ∧
      HoldsTys env timeOk (fun f => f.tyDefault) false ts vs) := by
  induction ts with
  | nil => exact Post.pure (by simp [TysTy, HoldsTys])
  | cons t ts iht =>
    refine Post.bind (ih t) fun a ha => Post.bind iht fun as has => Post.pure ?_
    simp only [TysTy, HoldsTys]
    exact ⟨⟨ha.1, has.1⟩, ⟨ha.2, has.2⟩⟩

theorem deFields_typed {f : Ty → BinM Val}
    (ih : ∀ t, Post (f t) (fun v => HasTy env t v ∧ BinExact env t v)) (us : Bool) (fs : List Field)
    (hdef : us = true → ∀ f ∈ fs, f.skip = true → HasTy env f.ty f.tyDefault) :
    Post (deBinFields f us fs) (fun vs => FieldsTy env fs vs ∧
      HoldsFields env timeOk (fun f => f.tyDefault) false us fs vs) := by
  induction fs with
  | nil => exact Post.pure (by simp [FieldsTy, HoldsFields])
  | cons fd fs iht =>
    have iht := iht (fun hu f hf => hdef hu f (by simp [hf]))
    simp only [deBinFields]
    split
    · rename_i hs
      refine Post.bind (P := fun v => v = fd.tyDefault) (Post.pure rfl) fun a ha =>
        Post.bind iht fun as has => Post.pure ?_
      subst ha
      simp only [FieldsTy, HoldsFields, if_pos hs]
      exact ⟨⟨hdef hs.1 fd (by simp) hs.2, has.1⟩, trivial, has.2⟩
    · rename_i hs
      refine Post.bind (ih fd.ty) fun a ha => Post.bind iht fun as has => Post.pure ?_
      simp only [FieldsTy, HoldsFields, if_neg hs]
      exact ⟨⟨ha.1, has.1⟩, ⟨ha.2, has.2⟩⟩

/-- A typed, exact map entry. -/
def EntryOk (env : Env) (k t : Ty) (e : Val) : Prop :=
  ∃ a b, e = .entry a b ∧ (HasTy env k a ∧ BinExact env k a) ∧ (HasTy env t b ∧ BinExact env t b)

theorem entries_of_ok {k t : Ty} {vs : List Val} (h : ∀ v ∈ vs, EntryOk env k t v) :
    EntriesTy env k t vs ∧ HoldsEntries env timeOk (fun f => f.tyDefault) false k t vs := by
  induction vs with
  | nil => simp [EntriesTy, HoldsEntries]
  | cons v vs ih =>
    obtain ⟨a, b, rfl, ha, hb⟩ := h v (by simp)
    have := ih (fun w hw => h w (by simp [hw]))
    simp only [EntriesTy, HoldsEntries]
    exact ⟨⟨ha.1, hb.1, this.1⟩, ha.2, hb.2, this.2⟩

theorem hmap_fold_ok {k t : Ty} (vs acc : List Val) (hv : ∀ v ∈ vs, EntryOk env k t v)
    (ha : ∀ v ∈ acc, EntryOk env k t v) :
    ∀ v ∈ vs.foldl (collInsert env .hmap) acc, EntryOk env k t v := by
  induction vs generalizing acc with
  | nil => exact ha
  | cons y vs ih =>
    obtain ⟨a, b, rfl, h1, h2⟩ := hv y (by simp)
    refine ih _ (fun w hw => hv w (by simp [hw])) ?_
    intro w hw
    have hE : AllEntries acc := fun v hv => by obtain ⟨a, b, h, _⟩ := ha v hv; exact ⟨a, b, h⟩
    rcases hmapInsert_key hE hw with rfl | hw | ⟨a', b', h3, _, rfl⟩
    · exact ⟨a, b, rfl, h1, h2⟩
    · exact ha w hw
    · obtain ⟨a'', b'', he, h4, h5⟩ := ha _ h3
      injection he with e1 e2
      subst e1
      exact ⟨a', b, rfl, h4, h2⟩

theorem bmap_fold_ok {k t : Ty} (vs acc : List Val) (hv : ∀ v ∈ vs, EntryOk env k t v)
    (ha : ∀ v ∈ acc, EntryOk env k t v) :
    ∀ v ∈ vs.foldl (collInsert env .bmap) acc, EntryOk env k t v := by
  induction vs generalizing acc with
  | nil => exact ha
  | cons y vs ih =>
    obtain ⟨a, b, rfl, h1, h2⟩ := hv y (by simp)
    refine ih _ (fun w hw => hv w (by simp [hw])) ?_
    intro w hw
    have hE : AllEntries acc := fun v hv => by obtain ⟨a, b, h, _⟩ := ha v hv; exact ⟨a, b, h⟩
    rcases bmapInsert_key hE hw with rfl | hw | ⟨a', b', h3, _, rfl⟩
    · exact ⟨a, b, rfl, h1, h2⟩
    · exact ha w hw
    · obtain ⟨a'', b'', he, h4, h5⟩ := ha _ h3
      injection he with e1 e2
      subst e1
      exact ⟨a', b, rfl, h4, h2⟩

theorem allEntries_of_ok {k t : Ty} {vs : List Val} (h : ∀ v ∈ vs, EntryOk env k t v) :
    AllEntries vs := fun v hv => by obtain ⟨a, b, h, _⟩ := h v hv; exact ⟨a, b, h⟩

/-- Decoded values are well typed and representable. -/
theorem deBin_typed (hk : LawfulKeys env) (hs : SaneEnv env) (hd : d.length ≤ isizeMax) (n : Nat)
    (t : Ty) : Post (deBin env chk d n t) (fun v => HasTy env t v ∧ BinExact env t v) := by
  induction n generalizing t with
  | zero => exact Post.oof
  | succ n ih =>
    cases t with
    | unit => exact Post.pure (by simp [HasTy, BinExact, Holds])
    | bool =>
      exact Post.bind (Post.true _) fun _ _ => Post.pure (by simp [HasTy, BinExact, Holds])
    | int k =>
      cases k
      case usize =>
        refine Post.bind (Post.readUsize hd) fun m hm => Post.pure ?_
        simp [HasTy, BinExact, Holds, IntKind.inRange, IntKind.lo, IntKind.hi, IntKind.signed,
          IntKind.bytes]
        omega
      all_goals
        refine Post.bind (Post.readPrim _ (by decide) hd) fun bs hb => Post.pure ⟨?_, ?_⟩
        · simp only [HasTy]; exact ofTwos_inRange _ _ hb
        · simp [BinExact, Holds]
    | f32 => exact Post.bind (Post.true _) fun _ _ => Post.pure (by simp [HasTy, BinExact, Holds])
    | f64 => exact Post.bind (Post.true _) fun _ _ => Post.pure (by simp [HasTy, BinExact, Holds])
    | str => exact Post.bind (Post.true _) fun _ _ => Post.pure (by simp [HasTy, BinExact, Holds])
    | dur =>
      refine Post.bind (Post.deBinDur hd) fun p hp => Post.pure ?_
      simp [HasTy, BinExact, Holds]; exact hp
    | time =>
      refine Post.bind (Post.true _) fun tag _ => ?_
      split
      · refine Post.bind (Post.deBinDur hd) fun p hp => ?_
        intro o v o' h
        simp only [epochPlus] at h
        split at h
        · simp at h
          rw [← h.1]
          simp only [HasTy, BinExact, Holds, Val.time.injEq]
          refine ⟨⟨by omega, by omega, hp.2⟩, ?_⟩
          intro s n h; omega
        · simp at h
      · exact Post.pure (by simp [HasTy, BinExact, Holds])
    | option t =>
      refine Post.bind (Post.true _) fun tag _ => ?_
      split
      · refine Post.bind (ih t) fun v hv => Post.pure ?_
        simp only [HasTy, BinExact, Holds]
        exact ⟨hv.1, by simp, hv.2⟩
      · exact Post.pure (by simp [HasTy, BinExact, Holds])
    | vec t =>
      refine Post.bind (Post.readUsize hd) fun len hl => ?_
      refine Post.bind (P := fun _ => len * env.memSize t ≤ isizeMax) ?_ fun _ hc => ?_
      · intro o a o' h
        simp only [vecCap] at h
        split at h
        · assumption
        · simp at h
      · refine Post.bind (Post.repeatM (ih t) len) fun vs hv => Post.pure ?_
        simp only [HasTy, BinExact, Holds, AllTy_iff, HoldsAll_iff]
        rw [hv.1]
        exact ⟨⟨fun v h => (hv.2 v h).1, by unfold u64Max; omega, hc⟩, by simp,
          fun v h => (hv.2 v h).2⟩
    | linked t =>
      refine Post.bind (Post.readUsize hd) fun len hl => ?_
      refine Post.bind (Post.repeatM (ih t) len) fun vs hv => Post.pure ?_
      simp only [HasTy, BinExact, Holds, AllTy_iff, HoldsAll_iff]
      rw [hv.1]
      exact ⟨⟨fun v h => (hv.2 v h).1, by unfold u64Max; omega⟩, by simp,
          fun v h => (hv.2 v h).2⟩
    | hset t =>
      refine Post.bind (Post.readUsize hd) fun len hl => ?_
      refine Post.bind (P := fun _ => env.hashCapPanics (env.memSize t) len = false) ?_ fun _ hc => ?_
      · intro o a o' h
        simp only [hashCap] at h
        split at h
        · simp at h
        · simp_all
      · refine Post.bind (Post.insertLoop (ih t) .hset len) fun r hr => Post.pure ?_
        obtain ⟨vs, rfl, hv, rfl⟩ := hr
        have hlen := coll_fold_length (env := env) .hset vs []
        simp only [List.length_nil, Nat.zero_add] at hlen
        simp only [HasTy, BinExact, Holds, AllTy_iff, HoldsAll_iff]
        refine ⟨⟨fun v h => ?_, by unfold u64Max; omega, hs.cap _ _ _ hlen hc,
          hset_fold_pairwise hk vs [] (by simp)⟩, by simp, fun v h => ?_⟩
        · rw [hset_fold_mem hk] at h; exact (hv v (by simpa using h)).1
        · rw [hset_fold_mem hk] at h; exact (hv v (by simpa using h)).2
    | bset t =>
      refine Post.bind (Post.readUsize hd) fun len hl => ?_
      refine Post.bind (Post.insertLoop (ih t) .bset len) fun r hr => Post.pure ?_
      obtain ⟨vs, rfl, hv, rfl⟩ := hr
      have hlen := coll_fold_length (env := env) .bset vs []
      simp only [List.length_nil, Nat.zero_add] at hlen
      simp only [HasTy, BinExact, Holds, AllTy_iff, HoldsAll_iff]
      refine ⟨⟨fun v h => ?_, by unfold u64Max; omega,
        bset_fold_pairwise hk vs [] (by simp)⟩, by simp, fun v h => ?_⟩
      · rw [bset_fold_mem hk] at h; exact (hv v (by simpa using h)).1
      · rw [bset_fold_mem hk] at h; exact (hv v (by simpa using h)).2
    | array t len =>
      refine Post.bind (Post.repeatM (ih t) len) fun vs hv => Post.pure ?_
      simp only [HasTy, BinExact, Holds, AllTy_iff, HoldsAll_iff]
      exact ⟨⟨fun v h => (hv.2 v h).1, hv.1⟩, by simp, fun v h => (hv.2 v h).2⟩
    | pair a b =>
      refine Post.bind (deTys_typed ih _) fun vs hv => Post.pure ?_
      simp only [HasTy, BinExact, Holds]; exact ⟨hv.1, by simp, hv.2⟩
    | triple a b c =>
      refine Post.bind (deTys_typed ih _) fun vs hv => Post.pure ?_
      simp only [HasTy, BinExact, Holds]; exact ⟨hv.1, by simp, hv.2⟩
    | quad a b c e =>
      refine Post.bind (deTys_typed ih _) fun vs hv => Post.pure ?_
      simp only [HasTy, BinExact, Holds]; exact ⟨hv.1, by simp, hv.2⟩
    | hmap k t =>
      refine Post.bind (Post.readUsize hd) fun len hl => ?_
      refine Post.bind (P := fun _ => env.hashCapPanics (env.memSize k + env.memSize t) len = false)
        ?_ fun _ hc => ?_
      · intro o a o' h
        simp only [hashCap] at h
        split at h
        · simp at h
        · simp_all
      · refine Post.bind (Post.insertLoop (P := EntryOk env k t) (Post.bind (ih k) fun a ha =>
          Post.bind (ih t) fun b hb => Post.pure ⟨a, b, rfl, ha, hb⟩) .hmap len) fun r hr => Post.pure ?_
        obtain ⟨vs, rfl, hv, rfl⟩ := hr
        have hlen := coll_fold_length (env := env) .hmap vs []
        simp only [List.length_nil, Nat.zero_add] at hlen
        have hok := entries_of_ok (hmap_fold_ok vs [] hv (by simp))
        simp only [HasTy, BinExact, Holds]
        exact ⟨⟨hok.1, by unfold u64Max; omega, hs.cap _ _ _ hlen hc,
          (hmap_fold_pairwise hk vs [] (allEntries_of_ok hv) (by intro v hv; simp at hv) (by simp)).2⟩,
          by simp, hok.2⟩
    | bmap k t =>
      refine Post.bind (Post.readUsize hd) fun len hl => ?_
      refine Post.bind (Post.insertLoop (P := EntryOk env k t) (Post.bind (ih k) fun a ha =>
        Post.bind (ih t) fun b hb => Post.pure ⟨a, b, rfl, ha, hb⟩) .bmap len) fun r hr => Post.pure ?_
      obtain ⟨vs, rfl, hv, rfl⟩ := hr
      have hlen := coll_fold_length (env := env) .bmap vs []
      simp only [List.length_nil, Nat.zero_add] at hlen
      have hok := entries_of_ok (bmap_fold_ok vs [] hv (by simp))
      simp only [HasTy, BinExact, Holds]
      exact ⟨⟨hok.1, by unfold u64Max; omega,
        (bmap_fold_pairwise hk vs [] (allEntries_of_ok hv) (by intro v hv; simp at hv) (by simp)).2⟩,
        by simp, hok.2⟩
    | box t =>
      refine Post.bind (ih t) fun v hv => Post.pure ?_
      simp only [HasTy, BinExact, Holds]
      exact ⟨hv.1, by simp, hv.2⟩
    | named i =>
      simp only [deBin]
      cases hdef : env.defs[i]? with
      | none => exact Post.oof
      | some df =>
        cases df with
        | struct fs cd nn =>
          refine Post.bind (deFields_typed ih true fs (fun _ => hs.defaults i fs cd nn hdef))
            fun vs hv => Post.pure ?_
          simp only [HasTy, BinExact, Holds, hdef]
          exact ⟨hv.1, by simp, hv.2⟩
        | tuple ts tr =>
          refine Post.bind (deTys_typed ih _) fun vs hv => Post.pure ?_
          simp only [HasTy, BinExact, Holds, hdef]
          exact ⟨hv.1, by simp, hv.2⟩
        | enum vars =>
          refine Post.bind (Post.true _) fun id _ => ?_
          cases hvar : vars[leVal id]? with
          | none => exact Post.throw
          | some var =>
            obtain ⟨nm, rn, sh⟩ := var
            cases sh with
            | unit =>
              refine Post.bind (P := fun vs => vs = []) (Post.pure rfl) fun vs hv => Post.pure ?_
              subst hv
              simp [HasTy, BinExact, Holds, hdef, hvar]
            | tuple ts =>
              refine Post.bind (deTys_typed ih ts) fun vs hv => Post.pure ?_
              simp only [HasTy, BinExact, Holds, hdef, hvar]
              exact ⟨hv.1, by simp, hv.2⟩
            | named fs =>
              refine Post.bind (deFields_typed ih false fs (by simp)) fun vs hv => Post.pure ?_
              simp only [HasTy, BinExact, Holds, hdef, hvar]
              exact ⟨hv.1, by simp, hv.2⟩
    | proxied i =>
      simp only [deBin]
      cases hp : env.proxies[i]? with
      | none => exact Post.oof
      | some px =>
        refine Post.bind (ih px.ty) fun p hv => Post.pure ?_
        obtain ⟨h1, h2, h3⟩ := hs.proxies i px hp p hv.1 hv.2
        simp only [HasTy, BinExact, Holds, hp]
        exact ⟨⟨h1, trivial, h3⟩, by simp, h2⟩

end NS
