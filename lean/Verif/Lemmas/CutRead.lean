import Verif.Lemmas.Cut
/-! Reading a JSON text that breaks off: readers in front of anything but a bracket. -/
namespace NS
variable {fl : FloatOps} {env : Env}

/-- The reader returns `Ok` with `Q`, or `Err`. -/
abbrev Cuts (B : Nat) {α : Type} (x : Nat → PM α) (s : PSt) (Q : α → PSt → Prop) : Prop :=
  Ends B (fun _ => True) False False x s Q

namespace Cuts
variable {B : Nat} {α β : Type} {s : PSt} {Q : α → PSt → Prop}

theorem nx : Cuts B (fun _ => jNext fl) s (fun _ s' => jNext fl s = .ok () s') := by
  rcases jNext_total (fl := fl) s with ⟨s', e⟩ | ⟨e, s', h⟩
  · exact ⟨.ok () s', ⟨trivial, e⟩, fun _ _ => e⟩
  · exact ⟨.err e s', trivial, fun _ _ => h⟩

theorem pure {a : α} (h : Q a s) : Cuts B (fun _ => (Pure.pure a : PM α)) s Q := Ends.pure trivial h

theorem expect {t : Tok} (w) : Cuts B (fun _ => expectTok (jNext fl) t w) s (fun _ s' => s.tok = t ∧ jNext fl s = .ok () s') := by
  refine Ends.get ?_
  by_cases h : s.tok = t
  · simp only [if_pos h]
    exact Ends.weaken nx fun _ _ _ h' => ⟨h, h'⟩
  · simp only [if_neg h]; exact Ends.fail trivial _

theorem miss {t : Tok} (h : s.tok ≠ t) (w) (f : Nat → PM α) : Cuts B (fun n => expectTok (jNext fl) t w >>= fun _ => f n) s Q :=
  Ends.bind (f := fun n _ => f n) (expect w) fun _ _ _ h' => absurd h'.1 h

theorem expectThen {t : Tok} (w) {f : Nat → PM α} (h : ∀ s', s.tok = t → jNext fl s = .ok () s' → Cuts B f s' Q) :
    Cuts B (fun n => expectTok (jNext fl) t w >>= fun _ => f n) s Q :=
  Ends.bind (f := fun n _ => f n) (expect w) fun _ s' _ h' => h s' h'.1 h'.2

theorem i64Range (lo hi) : Cuts B (fun _ => NS.i64Range lo hi) s (fun _ s' => s' = s ∧ s.tok.leaf = true) := by
  refine Ends.get ?_
  cases h : s.tok with
  | u64 v =>
    simp only
    by_cases hv : u64AsI64 v > hi
    · simp only [if_pos hv]; exact Ends.fail trivial _
    · simp only [if_neg hv]; exact pure ⟨rfl, rfl⟩
  | i64 v =>
    simp only
    by_cases hv : v < lo
    · simp only [if_pos hv]; exact Ends.fail trivial _
    · simp only [if_neg hv]; exact pure ⟨rfl, rfl⟩
  | _ => exact Ends.fail trivial _

theorem asF64 (fl) : Cuts B (fun _ => NS.asF64 fl) s (fun _ s' => s' = s ∧ s.tok.leaf = true) := by
  refine Ends.get ?_
  cases h : s.tok with
  | u64 v => exact pure ⟨rfl, rfl⟩
  | i64 v => exact pure ⟨rfl, rfl⟩
  | f64 v => exact pure ⟨rfl, rfl⟩
  | _ => exact Ends.fail trivial _

/-- One token has been read, a value by itself. -/
def Leaf (fl : FloatOps) (s : PSt) {α : Type} : α → PSt → Prop := fun _ s' =>
  (s.tok.leaf = true ∨ s.tok = .str) ∧ ∃ s0 : PSt, s0.cur.txt = s.cur.txt ∧ jNext fl s0 = .ok () s'

theorem step {a : α} {s0 : PSt} (h : s.tok.leaf = true ∨ s.tok = .str) (h0 : s0.cur.txt = s.cur.txt) :
    Cuts B (fun _ => jNext fl >>= fun _ => (Pure.pure a : PM α)) s0 (Leaf fl s) :=
  Ends.bind (f := fun _ _ => Pure.pure a) nx fun _ _ _ h' => pure ⟨h, s0, h0, h'⟩

theorem deInt {k : IntKind} (hk : k.textual = true) : Cuts B (fun _ => NS.deInt (jNext fl) k) s (Leaf fl s) := by
  unfold NS.deInt
  rw [if_neg (by simp [hk])]
  split
  · exact Ends.bind (f := fun _ v => jNext fl >>= fun _ => Pure.pure (Val.int (castInt k v))) (i64Range _ _)
      fun a s1 _ ⟨e, ht⟩ => step (.inl ht) (by rw [e])
  · exact Ends.bind (f := fun _ (v : Nat) => jNext fl >>= fun _ => Pure.pure (Val.int (castInt k (v : Int)))) (Ends.u64Range trivial _)
      fun a s1 _ ⟨e, ht⟩ => step (.inl (by rw [ht]; rfl)) (by rw [e])

theorem deStr : Cuts B (fun _ => NS.deStr (jNext fl)) s (fun a s' => Leaf fl s a s' ∧ s.tok = .str ∧ a = s.strbuf) := by
  refine Ends.bind (f := fun _ a => jNext fl >>= fun _ => Pure.pure a) (Q := fun a s' => s' = { s with strbuf := [] } ∧ s.tok = .str ∧ a = s.strbuf)
    ?_ fun a s1 _ ⟨e, ht, ha⟩ => ?_
  · refine Ends.get ?_
    by_cases h : s.tok = .str
    · simp only [if_pos h]
      exact ⟨.ok s.strbuf { s with strbuf := [] }, ⟨trivial, rfl, h, rfl⟩, fun _ _ => rfl⟩
    · simp only [if_neg h]; exact Ends.fail trivial _
  · exact Ends.bind (f := fun _ _ => Pure.pure a) Cuts.nx fun _ s2 _ h2 => Cuts.pure ⟨⟨.inr ht, s1, by rw [e], h2⟩, ht, ha⟩

end Cuts

/-- Types whose values are single tokens. -/
def Ty.isLeaf : Ty → Bool
  | .unit | .bool | .int _ | .f32 | .f64 | .str => true
  | _ => false

/-- A reader in front of anything but an opening bracket fails or reads one token. -/
theorem leaf_read {rank : Ty → Nat} (hr : Ranked env rank) (hw : ProgWf env) (t : Ty) (ht : TyWf env t) (s : PSt)
    (hs : t.isLeaf = true ∨ s.tok ≠ .blockOpen ∧ s.tok ≠ .curlyOpen) :
    Cuts (rank t + 1) (fun n => deJson env fl n t) s (Cuts.Leaf fl s) := by
  have hr' := hr
  obtain ⟨r1, r2, r3, r4⟩ := hr'
  generalize hrt : rank t = rt
  induction rt using Nat.strongRecOn generalizing t with
  | ind rt ih =>
  subst hrt
  by_cases hlf : t.isLeaf = true
  · apply Ends.succ
    cases t with
    | unit =>
      exact Ends.bind (f := fun _ _ => Pure.pure Val.unit) (Cuts.expect _) fun _ s1 _ h1 =>
        Cuts.pure ⟨.inl (by rw [h1.1]; rfl), s, rfl, h1.2⟩
    | bool =>
      refine Ends.get ?_
      cases hb : s.tok with
      | bool b => exact Cuts.step (.inl (by rw [hb]; rfl)) rfl
      | _ => exact Ends.fail trivial _
    | int k => exact Cuts.deInt ht
    | f32 => exact Ends.bind (f := fun _ v => jNext fl >>= fun _ => Pure.pure _) (Cuts.asF64 _) fun a s1 _ ⟨e, h⟩ => Cuts.step (.inl h) (by rw [e])
    | f64 => exact Ends.bind (f := fun _ v => jNext fl >>= fun _ => Pure.pure _) (Cuts.asF64 _) fun a s1 _ ⟨e, h⟩ => Cuts.step (.inl h) (by rw [e])
    | str => exact Ends.bind (f := fun _ a => Pure.pure (Val.str a)) Cuts.deStr fun _ s1 _ h1 => Cuts.pure h1.1
    | _ => cases hlf
  replace hs := hs.resolve_left hlf
  have same : ∀ t', rank t' < rank t → TyWf env t' → Cuts (rank t) (fun n => deJson env fl n t') s (Cuts.Leaf fl s) :=
    fun t' h w => (ih _ h t' w (.inr hs) rfl).more (by omega)
  have dur : Cuts (rank t) (fun n => NS.deDur (jNext fl) n) s (fun _ _ => False) := Cuts.miss hs.2 _ _
  have tup : ∀ (ts : List Ty), Cuts (rank t) (fun n => NS.deTuple (blockOpen (jNext fl)) (blockClose (jNext fl)) (eatCommaBlock (jNext fl))
      (deJson env fl n) ts) s (Cuts.Leaf fl s) := fun ts => Cuts.miss hs.1 _ _
  apply Ends.succ
  cases t with
  | unit | bool | int _ | f32 | f64 | str => exact absurd rfl hlf
  | dur => exact dur.weaken fun _ _ _ h => h.elim
  | time =>
    refine Ends.get ?_
    by_cases hn : s.tok = .null
    · simp only [if_pos hn]
      refine Ends.bind (f := fun _ _ => NS.epochAt .none) Cuts.nx fun _ s1 _ h1 => ?_
      exact ⟨.ok (.time 0 0) s1, ⟨trivial, .inl (by rw [hn]; rfl), s, rfl, h1⟩, fun _ _ => rfl⟩
    · simp only [if_neg hn]
      exact Ends.bind (f := fun _ v => NS.epochAt v) dur fun _ _ _ h => h.elim
  | option t =>
    refine Ends.get ?_
    by_cases hn : s.tok = .null
    · simp only [if_pos hn]
      exact Cuts.step (.inl (by rw [hn]; rfl)) rfl
    · simp only [if_neg hn]
      exact Ends.bind (f := fun _ v => Pure.pure (Val.some v)) (same t (r1 t) ht) fun _ s1 _ h1 => Cuts.pure h1
  | vec t => exact Cuts.miss hs.1 _ _
  | linked t => exact Cuts.miss hs.1 _ _
  | hset t => exact Cuts.miss hs.1 _ _
  | bset t => exact Cuts.miss hs.1 _ _
  | array t len => exact Cuts.miss hs.1 _ _
  | pair a b => exact tup _
  | triple a b c => exact tup _
  | quad a b c d => exact tup _
  | hmap k v => exact Cuts.miss hs.2 _ _
  | bmap k v => exact Cuts.miss hs.2 _ _
  | box t => exact Ends.bind (f := fun _ v => Pure.pure (Val.box v)) (same t (r2 t) ht) fun _ s1 _ h1 => Cuts.pure h1
  | proxied i =>
    have hi : i < env.proxies.length := ht
    have he := List.getElem?_eq_getElem hi
    simp only [deJson, he]
    exact Ends.bind (f := fun _ p => Pure.pure _) (same _ (r4 i _ he) (hw.proxies _ (List.getElem_mem hi))) fun _ s1 _ h1 => Cuts.pure h1
  | named i =>
    have hi : i < env.defs.length := ht
    have he := List.getElem?_eq_getElem hi
    simp only [deJson, he]
    have hwd := hw.defs _ (List.getElem_mem hi)
    generalize env.defs[i] = d at *
    cases d with
    | struct fs cd nul => exact Ends.bind (f := fun _ vs => Pure.pure (Val.struct vs)) (Cuts.miss hs.2 _ _) fun _ _ _ h => Cuts.pure h
    | tuple ts tr =>
      simp only
      match ts, tr, hwd, he with
      | [], tr, hwd, he => exact Cuts.miss hs.2 _ _
      | [t], true, hwd, he =>
        exact Ends.bind (f := fun _ v => Pure.pure (Val.struct [v])) (same t (r3 i t he) (hwd t (by simp [Def.tys]))) fun _ s1 _ h1 => Cuts.pure h1
      | [t], false, hwd, he => exact Cuts.miss hs.1 _ _
      | t :: t' :: ts, tr, hwd, he => cases tr <;> exact Cuts.miss hs.1 _ _
    | enum vars =>
      simp only
      unfold deJsonEnum
      refine Ends.get ?_
      simp only [hs.2, false_and, if_false]
      by_cases hc : s.tok = .str ∧ vars.any (fun v => v.isUnit) = true
      · simp only [if_pos hc]
        refine Cuts.expectThen _ fun s1 _ h1 => Ends.get ?_
        cases hfv : findVariant vars true s1.strbuf with
        | none => exact Ends.fail trivial _
        | some j => exact Cuts.pure ⟨.inr hc.1, s, rfl, h1⟩
      · simp only [if_neg hc]
        exact Ends.fail trivial _

end NS
