import Verif.Lemmas.Progress
import Verif.Spec.Prog
/-! Readers return: a calculus. -/
namespace NS

/-- What a run may end in: `Ok` with `Q` and the state invariant `I`, `Err`, a panic if `P`, never if `H`. -/
def Good (I : PSt → Prop) (P H : Prop) {α : Type} (Q : α → PSt → Prop) : Out PErr PSt α → Prop
  | .ok a s => I s ∧ Q a s
  | .err _ _ => True
  | .panic => P
  | .oof => H

/-- With fuel `B` or more the run ends in a good outcome, always the same. -/
def Ends (B : Nat) (I : PSt → Prop) (P H : Prop) {α : Type} (x : Nat → PM α) (s : PSt) (Q : α → PSt → Prop) : Prop :=
  ∃ o, Good I P H Q o ∧ ∀ n, B ≤ n → x n s = o

/-- The text shrinks. -/
def Less (s : PSt) {α : Type} : α → PSt → Prop := fun _ s' => s'.left < s.left
/-- The text does not grow. -/
def Le (s : PSt) {α : Type} : α → PSt → Prop := fun _ s' => s'.left ≤ s.left

namespace Ends
variable {B : Nat} {I : PSt → Prop} {P H : Prop} {α β : Type} {s : PSt} {Q : α → PSt → Prop} {Q' : β → PSt → Prop}

theorem pure {a : α} (hs : I s) (h : Q a s) : Ends B I P H (fun _ => (Pure.pure a : PM α)) s Q :=
  ⟨.ok a s, ⟨hs, h⟩, fun _ _ => rfl⟩

theorem fail (_ : I s) (f) : Ends B I P H (fun _ => (failWith f : PM α)) s Q := ⟨.err _ s, trivial, fun _ _ => rfl⟩
theorem panic (h : P) : Ends B I P H (fun _ => (M.panic : PM α)) s Q := ⟨.panic, h, fun _ _ => rfl⟩

theorem weaken {x : Nat → PM α} {R : α → PSt → Prop} (h : Ends B I P H x s Q) (hw : ∀ a s', I s' → Q a s' → R a s') :
    Ends B I P H x s R := by
  obtain ⟨o, h1, h2⟩ := h
  refine ⟨o, ?_, h2⟩
  cases o with
  | ok a s' => exact ⟨h1.1, hw _ _ h1.1 h1.2⟩
  | _ => exact h1

theorem more {B' : Nat} {x : Nat → PM α} (h : Ends B I P H x s Q) (hB : B ≤ B') : Ends B' I P H x s Q := by
  obtain ⟨o, h1, h2⟩ := h
  exact ⟨o, h1, fun n hn => h2 n (Nat.le_trans hB hn)⟩

theorem succ {x : Nat → PM α} (h : Ends B I P H (fun n => x (n + 1)) s Q) : Ends (B + 1) I P H x s Q := by
  obtain ⟨o, h1, h2⟩ := h
  refine ⟨o, h1, fun n hn => ?_⟩
  have := h2 (n - 1) (by omega)
  simp only [show n - 1 + 1 = n by omega] at this
  exact this

theorem bind {x : Nat → PM α} {f : Nat → α → PM β} (h : Ends B I P H x s Q)
    (hf : ∀ a s', I s' → Q a s' → Ends B I P H (fun n => f n a) s' Q') : Ends B I P H (fun n => x n >>= f n) s Q' := by
  obtain ⟨o, h1, h2⟩ := h
  cases o with
  | ok a s' =>
    obtain ⟨o', h3, h4⟩ := hf a s' h1.1 h1.2
    refine ⟨o', h3, fun n hn => ?_⟩
    show (x n >>= f n) s = _
    rw [M.bind_ok (h2 n (by omega))]
    exact h4 n (by omega)
  | err e s' =>
    refine ⟨.err e s', h1, fun n hn => ?_⟩
    show (x n >>= f n) s = _
    rw [M.bind_def, h2 n hn]
  | panic =>
    refine ⟨.panic, h1, fun n hn => ?_⟩
    show (x n >>= f n) s = _
    rw [M.bind_def, h2 n hn]
  | oof =>
    refine ⟨.oof, h1, fun n hn => ?_⟩
    show (x n >>= f n) s = _
    rw [M.bind_def, h2 n hn]

theorem get {f : Nat → PSt → PM α} (h : Ends B I P H (fun n => f n s) s Q) : Ends B I P H (fun n => M.get >>= f n) s Q := h

theorem congr {x y : Nat → PM α} (h : Ends B I P H x s Q) (e : ∀ n, y n s = x n s) : Ends B I P H y s Q := by
  obtain ⟨o, h1, h2⟩ := h
  exact ⟨o, h1, fun n hn => by rw [e, h2 n hn]⟩

variable {nx : PM Unit} (L : Lexer nx I)
include L

theorem next (hs : I s) : Ends B I P H (fun _ => nx) s (fun _ s' => s'.left < s.left ∨ s.tok = .eof ∧ s'.tok = .eof) := by
  rcases L.run s hs with ⟨s', e, h1, h2⟩ | ⟨e, s', h1⟩
  · exact ⟨.ok () s', ⟨h1, h2⟩, fun _ _ => e⟩
  · exact ⟨.err e s', trivial, fun _ _ => h1⟩

theorem next_lt (hs : I s) (ht : s.tok ≠ .eof) : Ends B I P H (fun _ => nx) s (Less s) :=
  (next L hs).weaken fun _ _ _ h => h.resolve_right fun h => ht h.1

theorem next_le (hs : I s) : Ends B I P H (fun _ => nx) s (Le s) :=
  (next L hs).weaken fun _ s' _ h => by
    rcases h with h | ⟨_, h⟩
    · exact Nat.le_of_lt h
    · simp [Le, PSt.left, h]

theorem expectTok (hs : I s) {t : Tok} (ht : t ≠ .eof) (w) :
    Ends B I P H (fun _ => expectTok nx t w) s (fun _ s' => s'.left < s.left ∧ s.tok = t) := by
  refine get ?_
  by_cases h : s.tok = t
  · simp only [if_pos h]
    exact (next_lt L hs (by rw [h]; exact ht)).weaken fun _ _ _ h' => ⟨h', h⟩
  · simp only [if_neg h]; exact fail hs _

theorem eatComma (hs : I s) (t w) : Ends B I P H (fun _ => eatComma nx t w) s (Le s) := by
  refine get ?_
  by_cases h : s.tok = .comma
  · simp only [if_pos h]; exact next_le L hs
  simp only [if_neg h]
  by_cases h : s.tok = t
  · simp only [if_pos h]; exact pure hs (Nat.le_refl _)
  · simp only [if_neg h]; exact fail hs _

omit L in
theorem u64Range (hs : I s) (m) : Ends B I P H (fun _ => u64Range m) s (fun v s' => s' = s ∧ s.tok = .u64 v) := by
  refine get ?_
  cases h : s.tok with
  | u64 v =>
    simp only
    by_cases hv : v > m
    · simp only [if_pos hv]; exact fail hs _
    · simp only [if_neg hv]; exact pure hs ⟨rfl, rfl⟩
  | _ => exact fail hs _

omit L in
theorem i64Range (hs : I s) (lo hi) : Ends B I P H (fun _ => i64Range lo hi) s (fun _ s' => s' = s ∧ s.tok ≠ .eof) := by
  refine get ?_
  cases h : s.tok with
  | u64 v =>
    simp only
    by_cases hv : u64AsI64 v > hi
    · simp only [if_pos hv]; exact fail hs _
    · simp only [if_neg hv]; exact pure hs ⟨rfl, by simp⟩
  | i64 v =>
    simp only
    by_cases hv : v < lo
    · simp only [if_pos hv]; exact fail hs _
    · simp only [if_neg hv]; exact pure hs ⟨rfl, by simp⟩
  | _ => exact fail hs _

omit L in
theorem asF64 (hs : I s) (fl) : Ends B I P H (fun _ => asF64 fl) s (fun _ s' => s' = s ∧ s.tok ≠ .eof) := by
  refine get ?_
  cases h : s.tok with
  | u64 v => exact pure hs ⟨rfl, by simp⟩
  | i64 v => exact pure hs ⟨rfl, by simp⟩
  | f64 v => exact pure hs ⟨rfl, by simp⟩
  | _ => exact fail hs _

theorem asString (hs : I s) : Ends B I P H (fun _ => asString) s (fun _ s' => s' = { s with strbuf := [] } ∧ s.tok = .str) := by
  refine get ?_
  by_cases h : s.tok = .str
  · simp only [if_pos h]
    exact ⟨.ok s.strbuf { s with strbuf := [] }, ⟨L.setStr _ _ hs, rfl, h⟩, fun _ _ => rfl⟩
  · simp only [if_neg h]; exact fail hs _

theorem deStr (hs : I s) : Ends B I P H (fun _ => deStr nx) s (Less s) := by
  refine bind (f := fun _ a => nx >>= fun _ => Pure.pure a) (asString L hs) fun a s1 h1 ⟨e, ht⟩ => ?_
  subst e
  exact bind (f := fun _ _ => Pure.pure a) (next_lt L h1 (by simp [ht])) fun _ s2 h2 hl => pure h2 hl

theorem deInt (hs : I s) {k : IntKind} (hk : k.textual = true) : Ends B I P H (fun _ => deInt nx k) s (Less s) := by
  unfold NS.deInt
  rw [if_neg (by simp [hk])]
  split
  · refine bind (f := fun _ v => nx >>= fun _ => Pure.pure (Val.int (castInt k v))) (i64Range hs _ _) fun a s1 h1 ⟨e, ht⟩ => ?_
    subst e
    exact bind (f := fun _ _ => Pure.pure _) (next_lt L h1 ht) fun _ s2 h2 hl => pure h2 hl
  · refine bind (f := fun _ (v : Nat) => nx >>= fun _ => Pure.pure (Val.int (castInt k (v : Int)))) (u64Range hs _) fun a s1 h1 ⟨e, ht⟩ => ?_
    subst e
    exact bind (f := fun _ _ => Pure.pure _) (next_lt L h1 (by simp [ht])) fun _ s2 h2 hl => pure h2 hl

theorem deF64 (hs : I s) (fl) : Ends B I P H (fun _ => deF64 nx fl) s (Less s) := by
  refine bind (f := fun _ v => nx >>= fun _ => Pure.pure _) (asF64 hs fl) fun a s1 h1 ⟨e, ht⟩ => ?_
  subst e
  exact bind (f := fun _ _ => Pure.pure _) (next_lt L h1 ht) fun _ s2 h2 hl => pure h2 hl

theorem deF32 (hs : I s) (fl) : Ends B I P H (fun _ => deF32 nx fl) s (Less s) := by
  refine bind (f := fun _ v => nx >>= fun _ => Pure.pure _) (asF64 hs fl) fun a s1 h1 ⟨e, ht⟩ => ?_
  subst e
  exact bind (f := fun _ _ => Pure.pure _) (next_lt L h1 ht) fun _ s2 h2 hl => pure h2 hl

omit L in
/-- A loop whose body consumes text ends. -/
theorem loop {loop : (α → PM α) → Nat → α → PM α} (V : α → Prop) {body : Nat → α → PM α} {stop : PSt → Prop}
    (h0 : ∀ b n a t, stop t → loop b (n + 1) a t = .ok a t)
    (h1 : ∀ b n a t, ¬ stop t → loop b (n + 1) a t = (b a >>= loop b n) t) {m : Nat}
    (hb : ∀ a t, V a → I t → ¬ stop t → t.left ≤ m → Ends B I P H (fun n => body n a) t (fun a' t' => t'.left < t.left ∧ V a'))
    {a : α} (ha : V a) (hs : I s) (hm : s.left ≤ m) (hB : s.left < B) :
    Ends B I P H (fun n => loop (body n) n a) s (fun a' s' => s'.left ≤ s.left ∧ stop s' ∧ V a') := by
  have key : ∀ (k : Nat) (a : α) (t : PSt), V a → I t → t.left ≤ m → t.left = k →
      ∃ o, Good I P H (fun a' s' => s'.left ≤ t.left ∧ stop s' ∧ V a') o ∧
        ∀ n n', B ≤ n → k < n' → loop (body n) n' a t = o := by
    intro k
    induction k using Nat.strongRecOn with
    | _ k ih =>
      intro a t ha ht hm hk
      by_cases hst : stop t
      · refine ⟨.ok a t, ⟨ht, Nat.le_refl _, hst, ha⟩, fun n n' _ hn' => ?_⟩
        rw [show n' = n' - 1 + 1 by omega]; exact h0 _ _ _ _ hst
      obtain ⟨o, g, e⟩ := hb a t ha ht hst hm
      cases o with
      | ok a' t' =>
        obtain ⟨o', g', e'⟩ := ih t'.left (by rw [← hk]; exact g.2.1) a' t' g.2.2 g.1 (by have := g.2.1; omega) rfl
        refine ⟨o', ?_, fun n n' hn hn' => ?_⟩
        · cases o' with
          | ok a'' t'' => exact ⟨g'.1, by have := g.2.1; have := g'.2.1; omega, g'.2.2⟩
          | _ => exact g'
        · rw [show n' = n' - 1 + 1 by omega, h1 _ _ _ _ hst, M.bind_ok (e n (by omega))]
          exact e' _ _ (by omega) (by have := g.2.1; omega)
      | err x y =>
        refine ⟨.err x y, g, fun n n' hn hn' => ?_⟩
        rw [show n' = n' - 1 + 1 by omega, h1 _ _ _ _ hst, M.bind_def, show body n a t = _ from e n (by omega)]
      | panic =>
        refine ⟨.panic, g, fun n n' hn hn' => ?_⟩
        rw [show n' = n' - 1 + 1 by omega, h1 _ _ _ _ hst, M.bind_def, show body n a t = _ from e n (by omega)]
      | oof =>
        refine ⟨.oof, g, fun n n' hn hn' => ?_⟩
        rw [show n' = n' - 1 + 1 by omega, h1 _ _ _ _ hst, M.bind_def, show body n a t = _ from e n (by omega)]
  obtain ⟨o, g, e⟩ := key s.left a s ha hs hm rfl
  exact ⟨o, g, fun n hn => e n n hn (by omega)⟩

omit L in
theorem whileNot (V : α → Prop) {close : Tok} {body : Nat → α → PM α} {m : Nat}
    (hb : ∀ a t, V a → I t → t.tok ≠ close → t.left ≤ m → Ends B I P H (fun n => body n a) t (fun a' t' => t'.left < t.left ∧ V a'))
    {a : α} (ha : V a) (hs : I s) (hm : s.left ≤ m) (hB : s.left < B) :
    Ends B I P H (fun n => whileNot close (body n) n a) s (fun a' s' => s'.left ≤ s.left ∧ s'.tok = close ∧ V a') := by
  refine loop V (loop := fun b n a => NS.whileNot close b n a) (stop := fun t => t.tok = close) ?_ ?_ hb ha hs hm hB
  · intro b n a t h
    show (if t.tok = close then Pure.pure a else _ : PM α) t = _
    rw [if_pos h]; rfl
  · intro b n a t h
    show (if t.tok = close then Pure.pure a else _ : PM α) t = _
    rw [if_neg h]

omit L in
theorem whileIs (V : α → Prop) {tk : Tok} {body : Nat → α → PM α} {m : Nat}
    (hb : ∀ a t, V a → I t → t.tok = tk → t.left ≤ m → Ends B I P H (fun n => body n a) t (fun a' t' => t'.left < t.left ∧ V a'))
    {a : α} (ha : V a) (hs : I s) (hm : s.left ≤ m) (hB : s.left < B) :
    Ends B I P H (fun n => whileIs tk (body n) n a) s (fun a' s' => s'.left ≤ s.left ∧ V a') := by
  refine (loop V (loop := fun b n a => NS.whileIs tk b n a) (stop := fun t => t.tok ≠ tk) ?_ ?_
    (fun a t h1 h2 h3 => hb a t h1 h2 (Decidable.not_not.1 h3)) ha hs hm hB).weaken fun _ _ _ h => ⟨h.1, h.2.2⟩
  · intro b n a t h
    show (if t.tok = tk then _ else Pure.pure a : PM α) t = _
    rw [if_neg h]; rfl
  · intro b n a t h
    show (if t.tok = tk then _ else Pure.pure a : PM α) t = _
    rw [if_pos (Decidable.not_not.1 h)]

/-- An item reader at texts shorter than `m`. -/
abbrev _root_.NS.ReadsLt (B : Nat) (I : PSt → Prop) (P H : Prop) (m : Nat) (x : Nat → PM Val) : Prop :=
  ∀ t, I t → t.left < m → Ends B I P H x t (Less t)

theorem deSeq (hs : I s) (hB : s.left ≤ B) {x : Nat → PM Val} (hx : ReadsLt B I P H s.left x) (add) :
    Ends B I P H (fun n => deSeq nx n (x n) add) s (Less s) := by
  refine bind (f := fun n _ => NS.whileNot .blockClose (seqItem nx (x n) add) n [] >>= fun vs => blockClose nx >>= fun _ =>
    Pure.pure (Val.seq vs)) (expectTok L hs (by decide) _) fun _ s1 h1 ⟨l1, _⟩ => ?_
  refine bind (f := fun _ vs => blockClose nx >>= fun _ => Pure.pure (Val.seq vs)) (whileNot (fun _ => True) (m := s1.left)
    (body := fun n => seqItem nx (x n) add) (fun a t _ ht _ hm => ?_) trivial h1 (Nat.le_refl _) (by omega)) fun vs s2 h2 ⟨l2, _⟩ => ?_
  · refine bind (f := fun _ v => eatCommaBlock nx >>= fun _ => Pure.pure (add a v)) (hx t ht (by omega)) fun v t1 i1 k1 => ?_
    exact bind (f := fun _ _ => Pure.pure _) (eatComma L i1 _ _) fun _ t2 i2 k2 => pure i2 ⟨Nat.lt_of_le_of_lt k2 k1, trivial⟩
  · exact bind (f := fun _ _ => Pure.pure _) (expectTok L h2 (by decide) _) fun _ s3 h3 ⟨l3, _⟩ =>
      pure h3 (by unfold Less; omega)

theorem deMap (hs : I s) (hB : s.left ≤ B) {x y : Nat → PM Val} (hx : ReadsLt B I P H s.left x) (hy : ReadsLt B I P H s.left y) (add) :
    Ends B I P H (fun n => deMap nx n (x n) (y n) add) s (Less s) := by
  refine bind (f := fun n _ => NS.whileNot .curlyClose (mapItem nx (x n) (y n) add) n [] >>= fun vs => curlyClose nx >>= fun _ =>
    Pure.pure (Val.seq vs)) (expectTok L hs (by decide) _) fun _ s1 h1 ⟨l1, _⟩ => ?_
  refine bind (f := fun _ vs => curlyClose nx >>= fun _ => Pure.pure (Val.seq vs)) (whileNot (fun _ => True) (m := s1.left)
    (body := fun n => mapItem nx (x n) (y n) add) (fun a t _ ht _ hm => ?_) trivial h1 (Nat.le_refl _) (by omega)) fun vs s2 h2 ⟨l2, _⟩ => ?_
  · refine bind (f := fun n k => colon nx >>= fun _ => y n >>= fun v => eatCommaCurly nx >>= fun _ => Pure.pure (add a (.entry k v)))
      (hx t ht (by omega)) fun k t1 i1 k1 => ?_
    unfold Less at k1
    refine bind (f := fun n _ => y n >>= fun v => eatCommaCurly nx >>= fun _ => Pure.pure (add a (.entry k v)))
      (expectTok L i1 (by decide) _) fun _ t2 i2 ⟨k2, _⟩ => ?_
    refine bind (f := fun n v => eatCommaCurly nx >>= fun _ => Pure.pure (add a (.entry k v)))
      (hy t2 i2 (by omega)) fun v t3 i3 k3 => ?_
    unfold Less at k3
    exact bind (f := fun _ _ => Pure.pure _) (eatComma L i3 _ _) fun _ t4 i4 k4 =>
      pure i4 ⟨by unfold Le at k4; omega, trivial⟩
  · exact bind (f := fun _ _ => Pure.pure _) (expectTok L h2 (by decide) _) fun _ s3 h3 ⟨l3, _⟩ =>
      pure h3 (by unfold Less; omega)

/-- `Duration`; numerals are small enough, or panics are allowed. -/
theorem deDur (hs : I s) (hB : s.left ≤ B) (hD : P ∨ ∀ t v, I t → t.tok = .u64 v → v + 1 < 2 ^ 63) :
    Ends B I P H (fun n => deDur nx n) s (fun v s' => s'.left < s.left ∧ (P ∨ ∀ a b, v = .dur a b → a < 2 ^ 63)) := by
  let V : Option Nat × Option Nat → Prop := fun acc => P ∨ ∀ v, acc.1 = some v → v + 1 < 2 ^ 63
  refine bind (f := fun n _ => NS.whileNot .curlyClose (durItem nx) n (none, none) >>= fun acc => curlyClose nx >>= fun _ =>
    match acc.1 with
    | none => errParse "Duration must have secs field".toList
    | some secs =>
      let nanos := acc.2.getD 0
      if nanos > 1000000000 then errRange "Duration nanos must be at most 1,000,000,000".toList
      else durNewP secs nanos) (expectTok L hs (by decide) _) fun _ s1 h1 ⟨l1, _⟩ => ?_
  refine bind (f := fun n acc => curlyClose nx >>= fun _ =>
    match acc.1 with
    | none => errParse "Duration must have secs field".toList
    | some secs =>
      let nanos := acc.2.getD 0
      if nanos > 1000000000 then errRange "Duration nanos must be at most 1,000,000,000".toList
      else durNewP secs nanos) (whileNot V (close := .curlyClose) (a := (none, none)) (m := s1.left) (body := fun _ => durItem nx)
      (fun acc t hV ht _ hm => ?_) (.inr (fun v h => by cases h)) h1 (Nat.le_refl _) (by omega)) fun acc s2 h2 ⟨l2, _, hV⟩ => ?_
  · refine bind (f := fun _ key => durValue nx acc key >>= fun a => eatCommaCurly nx >>= fun _ => Pure.pure a)
      (deStr L ht) fun key t1 i1 k1 => ?_
    refine bind (f := fun _ a => eatCommaCurly nx >>= fun _ => Pure.pure a) (Q := fun a t2 => t2.left < t.left ∧ V a) ?_
      fun a t2 i2 k2 => bind (f := fun _ _ => Pure.pure a) (eatComma L i2 _ _) fun _ t3 i3 k3 =>
        pure i3 ⟨Nat.lt_of_le_of_lt k3 k2.1, k2.2⟩
    have num : ∀ (mx : Nat) (g : Nat → Option Nat × Option Nat), (∀ v, (P ∨ v + 1 < 2 ^ 63) → V (g v)) →
        Ends B I P H (fun _ => colon nx >>= fun _ => NS.u64Range mx >>= fun v => nx >>= fun _ => Pure.pure (g v)) t1
          (fun a t2 => t2.left < t.left ∧ V a) := by
      intro mx g hg
      refine bind (f := fun _ _ => NS.u64Range mx >>= fun v => nx >>= fun _ => Pure.pure (g v))
        (expectTok L i1 (by decide) _) fun _ t2 i2 ⟨k2, _⟩ => ?_
      refine bind (f := fun _ v => nx >>= fun _ => Pure.pure (g v)) (u64Range i2 mx) fun v t3 i3 ⟨e, ht3⟩ => ?_
      subst e
      refine bind (f := fun _ _ => Pure.pure (g v)) (next_le L i3) fun _ t4 i4 k4 => pure i4 ⟨?_, hg v ?_⟩
      · unfold Less at k1; unfold Le at k4; omega
      · exact hD.imp id fun h => h _ _ i3 ht3
    unfold durValue
    split
    · split
      · exact fail i1 _
      · exact num _ (fun v => (some v, acc.2)) fun v hv => hv.imp id fun hv w hw => by injection hw with hw; omega
    split
    · split
      · exact fail i1 _
      · exact num _ (fun v => (acc.1, some v)) fun v _ => hV
    · exact fail i1 _
  · refine bind (f := fun _ _ =>
      match acc.1 with
      | none => errParse "Duration must have secs field".toList
      | some secs =>
        let nanos := acc.2.getD 0
        if nanos > 1000000000 then errRange "Duration nanos must be at most 1,000,000,000".toList
        else durNewP secs nanos) (expectTok L h2 (by decide) _) fun _ s3 h3 ⟨l3, _⟩ => ?_
    cases hsec : acc.1 with
    | none => exact fail h3 _
    | some secs =>
      simp only
      split
      · exact fail h3 _
      · rename_i hnan
        have hl : s3.left < s.left := by omega
        have hsecs : P ∨ secs + 1 < 2 ^ 63 := hV.imp id fun h => h _ hsec
        refine ⟨durNewP secs (acc.2.getD 0) s3, ?_, fun _ _ => rfl⟩
        unfold durNewP
        split
        · refine ⟨h3, hl, hsecs.imp id fun h a b e => ?_⟩
          injection e with e1; omega
        · have hdiv : acc.2.getD 0 / 1000000000 = 1 := by omega
          split
          · refine ⟨h3, hl, hsecs.imp id fun h a b e => ?_⟩
            injection e with e1; omega
          · rcases hsecs with h | h
            · exact h
            · rename_i hq; unfold u64Max at hq; omega

omit L in
theorem epochAt (hs : I s) {v : Val} (hv : P ∨ ∀ a b, v = .dur a b → a < 2 ^ 63) :
    Ends B I P H (fun _ => epochAt v) s (Le s) := by
  refine ⟨NS.epochAt v s, ?_, fun _ _ => rfl⟩
  unfold NS.epochAt
  split
  · rename_i a b
    split
    · exact ⟨hs, Nat.le_refl _⟩
    · rcases hv with h | h
      · exact h
      · have := h a b rfl; omega
  · exact ⟨hs, Nat.le_refl _⟩

omit L in
theorem unwrapFields (cd fs acc) (hs : I s) : Ends B I P H (fun _ => unwrapFields cd fs acc) s (Le s) := by
  induction fs generalizing acc with
  | nil => cases acc <;> exact pure hs (Nat.le_refl _)
  | cons f fs ih =>
    cases acc with
    | nil => exact pure hs (Nat.le_refl _)
    | cons o os =>
      unfold NS.unwrapFields
      simp only
      have fin : ∀ v, Ends B I P H (fun _ => (Pure.pure v : PM Val) >>= fun a => NS.unwrapFields cd fs os >>= fun as => Pure.pure (a :: as)) s (Le s) := by
        intro v
        refine bind (f := fun _ a => NS.unwrapFields cd fs os >>= fun as => Pure.pure (a :: as)) (pure hs (Q := fun _ t => t = s) rfl) fun _ t ht e => ?_
        subst e
        exact bind (f := fun _ as => Pure.pure _) (ih os) fun _ t' ht' h => pure ht' h
      split
      · exact fin _
      split
      · exact fin _
      · exact ⟨.err _ s, trivial, fun _ _ => rfl⟩

theorem deTysEat {de : Nat → Ty → PM Val} (t w) {m : Nat} {ts : List Ty} (h : ∀ t ∈ ts, ReadsLt B I P H m fun n => de n t)
    (hs : I s) (hm : s.left < m) : Ends B I P H (fun n => deTysEat (de n) (NS.eatComma nx t w) ts) s (Le s) := by
  induction ts generalizing s with
  | nil => exact pure hs (Nat.le_refl _)
  | cons t1 ts ih =>
    refine bind (f := fun n a => NS.deTysEat (de n) (NS.eatComma nx t w) ts >>= fun as => Pure.pure (a :: as)) (Q := Less s) ?_ ?_
    · refine bind (f := fun n v => NS.eatComma nx t w >>= fun _ => Pure.pure v) (h t1 (by simp) s hs hm) fun v s1 h1 l1 => ?_
      exact bind (f := fun _ _ => Pure.pure v) (eatComma L h1 _ _) fun _ s2 h2 l2 => pure h2 (Nat.lt_of_le_of_lt l2 l1)
    · intro a s1 h1 l1
      unfold Less at l1
      refine bind (f := fun n as => Pure.pure _) (ih (fun u hu => h u (by simp [hu])) h1 (by omega)) fun as s2 h2 l2 =>
        pure h2 (by unfold Le at *; omega)

theorem commaAfter {x : Nat → PM Val} (t w) (h : Ends B I P H x s (Less s)) :
    Ends B I P H (fun n => commaAfter (x n) (NS.eatComma nx t w)) s (Less s) := by
  obtain ⟨o, g, e⟩ := h
  cases o with
  | ok v s1 =>
    obtain ⟨o', g', e'⟩ : Ends B I P H (fun _ => NS.eatComma nx t w >>= fun _ => Pure.pure v) s1 (Less s) :=
      bind (f := fun _ _ => Pure.pure v) (eatComma L g.1 _ _) fun _ s2 h2 l2 => pure h2 (Nat.lt_of_le_of_lt l2 g.2)
    refine ⟨o', g', fun n hn => ?_⟩
    simp only [NS.commaAfter, e n (by omega)]
    exact e' n (by omega)
  | err x1 s1 =>
    have tot : (∃ s2, NS.eatComma nx t w s1 = .ok () s2) ∨ ∃ e2 s2, NS.eatComma nx t w s1 = .err e2 s2 := by
      have : NS.eatComma nx t w s1 = if s1.tok = .comma then nx s1 else if s1.tok = t then .ok () s1 else errToken w s1 := by
        show (if s1.tok = .comma then nx else if s1.tok = t then Pure.pure () else errToken w : PM Unit) s1 = _
        split
        · rfl
        · split <;> rfl
      rw [this]
      split
      · exact L.total s1
      · split
        · exact .inl ⟨_, rfl⟩
        · exact .inr ⟨_, _, rfl⟩
    rcases tot with ⟨s2, e'⟩ | ⟨e2, s2, e'⟩
    · refine ⟨.err x1 s2, trivial, fun n hn => ?_⟩
      simp only [NS.commaAfter, e n hn, e']
    · refine ⟨.err e2 s2, trivial, fun n hn => ?_⟩
      simp only [NS.commaAfter, e n hn, e']
  | panic =>
    refine ⟨.panic, g, fun n hn => ?_⟩
    simp only [NS.commaAfter, e n hn]
  | oof =>
    refine ⟨.oof, g, fun n hn => ?_⟩
    simp only [NS.commaAfter, e n hn]

theorem deTuple {de : Nat → Ty → PM Val} {o c t : Tok} (wo wc w) (ho : o ≠ .eof) (hc : c ≠ .eof) {ts : List Ty}
    (h : ∀ t ∈ ts, ReadsLt B I P H s.left fun n => de n t) (hs : I s) :
    Ends B I P H (fun n => deTuple (NS.expectTok nx o wo) (NS.expectTok nx c wc) (NS.eatComma nx t w) (de n) ts) s (Less s) := by
  refine bind (f := fun n _ => deTysComma (de n) (NS.eatComma nx t w) ts >>= fun vs => NS.expectTok nx c wc >>= fun _ =>
    Pure.pure (Val.seq vs)) (expectTok L hs ho _) fun _ s1 h1 ⟨l1, _⟩ => ?_
  refine bind (f := fun n vs => NS.expectTok nx c wc >>= fun _ => Pure.pure (Val.seq vs)) (Q := Le s1) ?_ fun vs s2 h2 l2 =>
    bind (f := fun _ _ => Pure.pure _) (expectTok L h2 hc _) fun _ s3 h3 ⟨l3, _⟩ => pure h3 (by unfold Less; unfold Le at l2; omega)
  generalize s.left = m at *
  clear hs
  induction ts generalizing s1 with
  | nil => exact pure h1 (Nat.le_refl _)
  | cons t1 ts ih =>
    refine bind (f := fun n a => NS.deTysComma (de n) (NS.eatComma nx t w) ts >>= fun as => Pure.pure (a :: as))
      (commaAfter L t w (h t1 (by simp) s1 h1 l1)) fun a s2 h2 l2 => ?_
    unfold Less at l2
    refine bind (f := fun n as => Pure.pure _) (ih s2 h2 (fun u hu => h u (by simp [hu])) ⟨by omega, by assumption⟩ (by omega)) fun as s3 h3 l3 =>
        pure h3 (by unfold Le at *; omega)

theorem repeatEat {x : Nat → PM Val} (t w) {m : Nat} (h : ReadsLt B I P H m x) (len : Nat)
    (hs : I s) (hm : s.left < m) : Ends B I P H (fun n => repeatM (thenEat (x n) (NS.eatComma nx t w)) len) s (Le s) := by
  induction len generalizing s with
  | zero => exact pure hs (Nat.le_refl _)
  | succ len ih =>
    refine bind (f := fun n a => repeatM (thenEat (x n) (NS.eatComma nx t w)) len >>= fun as => Pure.pure (a :: as)) (Q := Less s) ?_ ?_
    · refine bind (f := fun n v => NS.eatComma nx t w >>= fun _ => Pure.pure v) (h s hs hm) fun v s1 h1 l1 => ?_
      exact bind (f := fun _ _ => Pure.pure v) (eatComma L h1 _ _) fun _ s2 h2 l2 => pure h2 (Nat.lt_of_le_of_lt l2 l1)
    · intro a s1 h1 l1
      unfold Less at l1
      refine bind (f := fun n as => Pure.pure _) (ih h1 (by omega)) fun as s2 h2 l2 =>
        pure h2 (by unfold Le at *; omega)

end Ends
end NS
