import Verif.Lemmas.JsonRun
import Verif.Lemmas.CurRel
import Verif.Model.Ron
/-! # Simulation between two runs of a RON reader (see `Verif/Lemmas/Sim.lean`) -/
namespace NS

theorem rSkip_no_panic (n : Nat) (s : PSt) : rSkip n s ≠ .panic := by
  induction n generalizing s with
  | zero => intro h; cases h
  | succ n ih =>
    unfold rSkip
    dsimp only
    repeat' split
    all_goals (first | exact ih _ | exact failWith_no_panic _ _ | (intro h; cases h; done))

theorem rTok_no_panic (fl : FloatOps) (s : PSt) : rTok fl s ≠ .panic := by
  unfold rTok
  dsimp only
  repeat' split
  all_goals (first | exact failWith_no_panic _ _ | (intro h; cases h; done))

theorem rNext_no_panic {fl : FloatOps} (s : PSt) : rNext fl s ≠ .panic := by
  unfold rNext
  split
  · exact rTok_no_panic _ _
  · exact rSkip_no_panic _ _

namespace Rel
variable {S : Sim} {nx : PM Unit} (hn : Rel S nx nx)
include hn

theorem deRonNamed {n m : Nat} (hnm : n ≤ m) {d e : Ty → PM Val} (cd) {fs : List Field}
    (h : ∀ f ∈ fs, Rel S (d f.ty) (e f.ty)) :
    Rel S (deRonNamed nx n d cd fs) (deRonNamed nx m e cd fs) := by
  refine bind (expectTok hn _ _) fun _ => bind (whileIs (fun acc => ?_) hnm _) fun _ =>
    bind (expectTok hn _ _) fun _ => unwrapFields _ _ _
  refine look fun s s' hs => ?_
  rw [S.ident hs]
  refine bind ?_ (fun _ => bind (eatComma hn _ _) fun _ => pure _) _ _ hs
  unfold rMemberValue
  split
  · exact pure _
  · cases hf : findField fs s.identbuf with
    | none => exact errExp _
    | some i =>
      have hi := (List.findIdx?_eq_some_iff_getElem.1 hf).1
      have hg : fs.getD i { name := [], ty := .unit } = fs[i] := by
        rw [List.getD_eq_getElem?_getD, List.getElem?_eq_getElem hi]; rfl
      have hm : fs[i] ∈ fs := List.getElem_mem _
      simp only [hg]
      exact bind (nextColon hn) fun _ => bind (h _ hm) fun _ => pure _

theorem deRonTys {d e : Ty → PM Val} {ts : List Ty} (h : ∀ t ∈ ts, Rel S (d t) (e t)) :
    Rel S (deRonTys nx d ts) (deRonTys nx e ts) :=
  bind (expectTok hn _ _) fun _ => bind (deTysEat (eatComma hn _ _) h) fun _ =>
    bind (expectTok hn _ _) fun _ => pure _

theorem deRonEnum {n m : Nat} {d e : Ty → PM Val} {vars : List Variant}
    (h : ∀ v ∈ vars, Rel S (deRonShape nx n d v.shape) (deRonShape nx m e v.shape)) :
    Rel S (deRonEnum nx n d vars) (deRonEnum nx m e vars) := by
  refine bind (expectTok hn _ _) (fun _ => look fun s s' hs => ?_)
  rw [S.ident hs]
  cases hf : vars.findIdx? (fun v => v.name == s.identbuf) with
  | none => exact errEnum _ _ _ hs
  | some i =>
    have hi := (List.findIdx?_eq_some_iff_getElem.1 hf).1
    have hg : vars.getD i { name := [], shape := .unit } = vars[i] := by
      rw [List.getD_eq_getElem?_getD, List.getElem?_eq_getElem hi]; rfl
    have hm : vars[i] ∈ vars := List.getElem_mem _
    simp only [hg]
    exact bind (h _ hm) (fun _ => pure _) _ _ hs

theorem ronBool : Rel S (do
      let st ← M.get
      match st.tok with
      | .bool b => do
        nx
        Pure.pure (Val.bool b)
      | .u64 v => do
        nx
        Pure.pure (Val.bool (v != 0))
      | _ => NS.errToken "boolean") (do
      let st ← M.get
      match st.tok with
      | .bool b => do
        nx
        Pure.pure (Val.bool b)
      | .u64 v => do
        nx
        Pure.pure (Val.bool (v != 0))
      | _ => NS.errToken "boolean") := by
  refine look fun s s' hs => ?_
  rw [S.tok hs]
  cases s.tok with
  | bool b => exact bind hn (fun _ => pure _) _ _ hs
  | u64 v => exact bind hn (fun _ => pure _) _ _ hs
  | _ => exact errToken _ _ _ hs

omit hn in
theorem atNone {s s' : PSt} (h : S.R s s') : NS.atNone s' = NS.atNone s := by
  unfold NS.atNone
  rw [S.tok h, S.ident h]
end Rel

/-- No `Duration` and no `SystemTime` in the type: the only readers with a panic. -/
def rCalmTy : Ty → Bool
  | .dur | .time => false
  | .option t | .vec t | .linked t | .hset t | .bset t | .array t _ | .box t => rCalmTy t
  | .pair a b | .hmap a b | .bmap a b => rCalmTy a && rCalmTy b
  | .triple a b c => rCalmTy a && rCalmTy b && rCalmTy c
  | .quad a b c d => rCalmTy a && rCalmTy b && rCalmTy c && rCalmTy d
  | _ => true

/-- No definition mentions `Duration` or `SystemTime`. -/
def rCalmEnv (env : Env) : Prop := ∀ d ∈ env.defs, ∀ t ∈ d.tys, rCalmTy t = true

theorem deRon_rel {S : Sim} (env : Env) (fl : FloatOps) (hn : Rel S (rNext fl) (rNext fl)) :
    ∀ (n m : Nat) (t : Ty), n ≤ m → (S.P ∨ (rCalmEnv env ∧ rCalmTy t = true)) →
      Rel S (deRon env fl n t) (deRon env fl m t) := by
  intro n
  induction n with
  | zero => intro m t _ _; exact Rel.oof _
  | succ n ih =>
    intro m t hnm hP
    obtain ⟨m, rfl⟩ : ∃ k, m = k + 1 := ⟨m - 1, by omega⟩
    have hle : n ≤ m := by omega
    have ih' : ∀ t, (S.P ∨ (rCalmEnv env ∧ rCalmTy t = true)) →
      Rel S (deRon env fl n t) (deRon env fl m t) := fun t => ih m t hle
    have hp : ∀ {u}, (rCalmTy t = true → rCalmTy u = true) → (S.P ∨ (rCalmEnv env ∧ rCalmTy u = true)) :=
      fun h => hP.imp id fun h' => ⟨h'.1, h h'.2⟩
    cases t with
    | unit => exact Rel.bind (Rel.expectTok hn _ _) fun _ => Rel.bind (Rel.expectTok hn _ _) fun _ => Rel.pure _
    | bool => exact Rel.ronBool hn
    | int k => exact Rel.deInt hn k
    | f32 => exact Rel.deF32 hn fl
    | f64 => exact Rel.deF64 hn fl
    | str => exact Rel.bind (Rel.deStr hn) fun _ => Rel.pure _
    | dur => exact Rel.deDur hn (hP.resolve_right (by simp [rCalmTy])) hle
    | time =>
      have hP := hP.resolve_right (by simp [rCalmTy])
      refine Rel.look fun s s' hs => ?_
      rw [Rel.atNone hs]
      split
      · exact Rel.bind hn (fun _ => Rel.epochAt hP _) _ _ hs
      · exact Rel.bind (Rel.deDur hn hP hle) (fun _ => Rel.epochAt hP _) _ _ hs
    | option t =>
      refine Rel.look fun s s' hs => ?_
      rw [Rel.atNone hs]
      split
      · exact Rel.bind hn (fun _ => Rel.pure _) _ _ hs
      · exact Rel.bind (ih' t (hp (by simp [rCalmTy]))) (fun _ => Rel.pure _) _ _ hs
    | vec t => exact Rel.deSeq hn (ih' t (hp (by simp [rCalmTy]))) hle _
    | linked t => exact Rel.deSeq hn (ih' t (hp (by simp [rCalmTy]))) hle _
    | hset t => exact Rel.deSeq hn (ih' t (hp (by simp [rCalmTy]))) hle _
    | bset t => exact Rel.deSeq hn (ih' t (hp (by simp [rCalmTy]))) hle _
    | array t len =>
      exact Rel.bind (Rel.expectTok hn _ _) fun _ =>
        Rel.bind (Rel.repeatM (Rel.thenEat (ih' t (hp (by simp [rCalmTy]))) (Rel.eatComma hn _ _)) _) fun _ =>
          Rel.bind (Rel.expectTok hn _ _) fun _ => Rel.pure _
    | pair a b =>
      refine Rel.deTuple (Rel.expectTok hn _ _) (Rel.expectTok hn _ _) (Rel.eatComma hn _ _)
        (fun _ => eatComma_no_panic rNext_no_panic) fun u hu =>
        ih' u (hp fun h => ?_)
      simp [rCalmTy] at h
      simp only [List.mem_cons, List.not_mem_nil, or_false] at hu
      rcases hu with rfl | rfl <;> simp [h]
    | triple a b c =>
      refine Rel.deTuple (Rel.expectTok hn _ _) (Rel.expectTok hn _ _) (Rel.eatComma hn _ _)
        (fun _ => eatComma_no_panic rNext_no_panic) fun u hu =>
        ih' u (hp fun h => ?_)
      simp [rCalmTy] at h
      simp only [List.mem_cons, List.not_mem_nil, or_false] at hu
      rcases hu with rfl | rfl | rfl <;> simp [h]
    | quad a b c d =>
      refine Rel.deTuple (Rel.expectTok hn _ _) (Rel.expectTok hn _ _) (Rel.eatComma hn _ _)
        (fun _ => eatComma_no_panic rNext_no_panic) fun u hu =>
        ih' u (hp fun h => ?_)
      simp [rCalmTy] at h
      simp only [List.mem_cons, List.not_mem_nil, or_false] at hu
      rcases hu with rfl | rfl | rfl | rfl <;> simp [h]
    | hmap k v =>
      exact Rel.deMap hn (ih' k (hp (by simp +contextual [rCalmTy]))) (ih' v (hp (by simp +contextual [rCalmTy]))) hle _
    | bmap k v =>
      exact Rel.deMap hn (ih' k (hp (by simp +contextual [rCalmTy]))) (ih' v (hp (by simp +contextual [rCalmTy]))) hle _
    | box t => exact Rel.bind (ih' t (hp (by simp [rCalmTy]))) fun _ => Rel.pure _
    | named i =>
      simp only [deRon]
      cases hd : env.defs[i]? with
      | none => exact Rel.oof _
      | some d =>
        have hcalm : ∀ u ∈ d.tys, S.P ∨ (rCalmEnv env ∧ rCalmTy u = true) := fun u hu =>
          hP.imp id fun h => ⟨h.1, h.1 d (List.mem_of_getElem? hd) u hu⟩
        cases d with
        | struct fs cd nul =>
          exact Rel.bind (Rel.deRonNamed hn hle cd fun f hf =>
            ih' _ (hcalm _ (by simp only [Def.tys, List.mem_map]; exact ⟨f, hf, rfl⟩))) fun _ => Rel.pure _
        | tuple ts tr => exact Rel.bind (Rel.deRonTys hn fun u hu => ih' u (hcalm _ (by simpa [Def.tys] using hu))) fun _ => Rel.pure _
        | enum vars =>
          refine Rel.deRonEnum hn fun v hv => ?_
          have hv' : ∀ u ∈ ((match v.shape with
              | .unit => []
              | .tuple ts => ts
              | .named fs => fs.map Field.ty) : List Ty), S.P ∨ (rCalmEnv env ∧ rCalmTy u = true) := fun u hu =>
            hcalm u (by simp only [Def.tys, List.mem_flatMap]; exact ⟨v, hv, hu⟩)
          cases hsh : v.shape with
          | unit => exact Rel.pure _
          | tuple ts => exact Rel.deRonTys hn fun u hu => ih' u (hv' _ (by simpa [hsh] using hu))
          | named fs =>
            exact Rel.deRonNamed hn hle _ fun f hf => ih' _ (hv' _ (by simp only [hsh, List.mem_map]; exact ⟨f, hf, rfl⟩))
    | proxied i => exact Rel.oof _

theorem deserializeRon_mono (env : Env) (fl : FloatOps) {n m : Nat} (h : n ≤ m) (t : Ty) (inp : List Char)
    (hx : deserializeRon env fl n t inp ≠ .oof) :
    deserializeRon env fl m t inp = deserializeRon env fl n t inp :=
  (Rel.bind (rel_refl (rNext fl)) (fun _ => deRon_rel env fl (rel_refl _) n m t h (.inl trivial))
    _ _ rfl).eq_of_ne_oof hx

section
variable {env : Env} {fl : FloatOps} {t : Ty} {inp : List Char}

theorem rdecodes_of_run {n v s} (h : deserializeRon env fl n t inp = .ok v s) :
    Decodes (fun n => deserializeRon env fl n t inp) v :=
  ⟨n, fun m hm => ⟨s, (deserializeRon_mono env fl hm t inp (by rw [h]; simp)).trans h⟩⟩

theorem rrejects_of_run {n e s} (h : deserializeRon env fl n t inp = .err e s) :
    Rejects (fun n => deserializeRon env fl n t inp) :=
  ⟨n, fun m hm => ⟨e, s, (deserializeRon_mono env fl hm t inp (by rw [h]; simp)).trans h⟩⟩

theorem rrejectsWith_of_run {n l c why s} (h : deserializeRon env fl n t inp = .err ⟨l, c, why⟩ s) :
    RejectsWith (fun n => deserializeRon env fl n t inp) why :=
  ⟨n, fun m hm => ⟨l, c, s, (deserializeRon_mono env fl hm t inp (by rw [h]; simp)).trans h⟩⟩

theorem rpanics_of_run {n} (h : deserializeRon env fl n t inp = .panic) :
    Panics (fun n => deserializeRon env fl n t inp) :=
  ⟨n, fun m hm => (deserializeRon_mono env fl hm t inp (by rw [h]; simp)).trans h⟩

theorem ron_ok (n : Nat) (v : Val) (h : (deserializeRon env fl n t inp).isOk v = true) :
    Decodes (fun n => deserializeRon env fl n t inp) v := by
  obtain ⟨s, h⟩ := Out.isOk_spec h
  exact rdecodes_of_run h

theorem ron_err (n : Nat) (why : Reason) (h : (deserializeRon env fl n t inp).isErr why = true) :
    RejectsWith (fun n => deserializeRon env fl n t inp) why := by
  obtain ⟨l, c, s, h⟩ := Out.isErr_spec h
  exact rrejectsWith_of_run h

theorem ron_panic (n : Nat) (h : (deserializeRon env fl n t inp).isPanic = true) :
    Panics (fun n => deserializeRon env fl n t inp) :=
  rpanics_of_run (Out.isPanic_spec h)

end
end NS
