import Verif.Lemmas.JsonMeans
/-! The reference decoder computes what `JsonMeans` says: integers, durations and the two directions. -/
namespace NS
variable {env : Env} {fl : FloatOps}

/-- A number that some text spells. -/
theorem NumLit.bounds {s : List Char} {t : Num} (h : NumLit fl s t) :
    (∀ n, t = .nat n → n ≤ u64Max) ∧ (∀ i, t = .neg i → i ≤ 0) := by
  cases h with
  | nat _ _ _ h => exact ⟨fun n e => by cases e; exact h, fun i e => by cases e⟩
  | neg _ _ _ => exact ⟨fun n e => (by cases e), fun i e => by cases e; omega⟩
  | float _ _ _ _ _ _ _ => exact ⟨fun n e => (by cases e), fun i e => by cases e⟩

theorem decInt_wrap (k : IntKind) (hk : k.textual = true) (hs : k.signed = true) (n : Nat) (i : Int) :
    i = castInt k ((n : Int) - 2 ^ 64) ↔ k.inRange i ∧ i % 2 ^ (8 * k.bytes) = (n : Int) % 2 ^ (8 * k.bytes) := by
  have h0 := ofTwos_inRange k (toTwos k.bytes ((n : Int) - 2 ^ 64)) (toTwos_lt _ _)
  have h1 : castInt k ((n : Int) - 2 ^ 64) % 2 ^ (8 * k.bytes) = (n : Int) % 2 ^ (8 * k.bytes) := by
    generalize (n : Int) = v
    cases k <;> simp [IntKind.textual] at hk <;> simp [IntKind.signed] at hs <;>
      simp only [castInt, IntKind.signed, IntKind.bytes, ofTwos, toTwos] <;> split <;> omega
  constructor
  · rintro rfl; exact ⟨h0, h1⟩
  · rintro ⟨h2, h3⟩
    rw [← h1] at h3
    have h0 : k.inRange (castInt k ((n : Int) - 2 ^ 64)) := h0
    generalize castInt k ((n : Int) - 2 ^ 64) = j at *
    clear h1
    cases k <;> simp [IntKind.textual] at hk <;> simp [IntKind.signed] at hs <;>
      simp only [IntKind.inRange, IntKind.lo, IntKind.hi, IntKind.signed, IntKind.bytes] at * <;> simp at * <;> omega

theorem decInt_iff {k : IntKind} (hk : k.textual = true) {t : Num} (hn : ∀ n, t = .nat n → n ≤ u64Max)
    (hneg : ∀ i, t = .neg i → i ≤ 0) (i : Int) : decInt k t = some i ↔
    (t.intVal = some i ∧ k.inRange i ∧ (k.signed = false → ∃ n, t = .nat n)) ∨
    (∃ n : Nat, t = .nat n ∧ k.signed = true ∧ 2 ^ 63 ≤ n ∧ n < 2 ^ 64 ∧ k.inRange i ∧
      i % 2 ^ (8 * k.bytes) = (n : Int) % 2 ^ (8 * k.bytes)) := by
  have hu : (u64Max : Nat) = 2 ^ 64 - 1 := by decide
  have hrt := fun i h => ofTwos_toTwos k i h
  have h0 : (0 : Int) ≤ k.hi := by cases k <;> decide
  cases hs : k.signed with
  | false =>
    have hlo : k.lo = 0 := by simp [IntKind.lo, hs]
    cases t with
    | nat n =>
      simp only [decInt, hs, Num.intVal, Option.some.injEq]
      by_cases h : n > k.hi.toNat
      · rw [if_pos h]
        constructor
        · intro h; cases h
        · rintro (⟨rfl, ⟨_, h2⟩, _⟩ | ⟨n', _, h, _⟩)
          · omega
          · cases h
      · rw [if_neg h]
        have hr : k.inRange n := ⟨by rw [hlo]; omega, by omega⟩
        have := hrt n hr
        rw [hs] at this
        simp only [castInt, hs, this, Option.some.injEq]
        constructor
        · rintro rfl; exact .inl ⟨rfl, hr, fun _ => ⟨n, rfl⟩⟩
        · rintro (⟨h, _⟩ | ⟨n', _, h, _⟩)
          · exact h
          · cases h
    | neg v => simp [decInt, hs, Num.intVal]
    | float x => simp [decInt, hs, Num.intVal]
  | true =>
    have hb : -(2 ^ 63 : Int) ≤ k.lo ∧ k.hi < 2 ^ 63 ∧ k.lo ≤ 0 := by
      cases k <;> simp [IntKind.textual] at hk <;> simp [IntKind.signed] at hs <;> decide
    cases t with
    | nat n =>
      have hn := hn n rfl
      simp only [decInt, hs, Num.intVal, Option.some.injEq]
      by_cases hw : n < 2 ^ 63
      · have hc : u64AsI64 n = n := if_pos hw
        rw [hc]
        by_cases h : (n : Int) > k.hi
        · rw [if_pos h]
          constructor
          · intro h; cases h
          · rintro (⟨rfl, ⟨_, h2⟩, _⟩ | ⟨n', e, _, h, _⟩)
            · omega
            · cases e; omega
        · rw [if_neg h]
          have hr : k.inRange n := ⟨by omega, by omega⟩
          have := hrt n hr
          rw [hs] at this
          simp only [castInt, hs, this, Option.some.injEq]
          constructor
          · rintro rfl; exact .inl ⟨rfl, hr, fun h => by cases h⟩
          · rintro (⟨h, _⟩ | ⟨n', e, _, h, _⟩)
            · exact h
            · cases e; omega
      · have hc : u64AsI64 n = (n : Int) - 2 ^ 64 := if_neg hw
        rw [hc, if_neg (by omega)]
        simp only [Option.some.injEq]
        rw [eq_comm, decInt_wrap k hk hs]
        constructor
        · rintro ⟨h1, h2⟩; exact .inr ⟨n, rfl, trivial, by omega, by omega, h1, h2⟩
        · rintro (⟨rfl, ⟨_, h⟩, _⟩ | ⟨n', e, _, _, _, h1, h2⟩)
          · omega
          · cases e; exact ⟨h1, h2⟩
    | neg v =>
      have hneg := hneg v rfl
      simp only [decInt, hs, Num.intVal, Option.some.injEq]
      by_cases h : v < k.lo
      · rw [if_pos h]
        constructor
        · intro h; cases h
        · rintro (⟨rfl, ⟨h2, _⟩, _⟩ | ⟨n', e, _⟩)
          · omega
          · cases e
      · rw [if_neg h]
        have hr : k.inRange v := ⟨by omega, by omega⟩
        have := hrt v hr
        rw [hs] at this
        simp only [castInt, hs, this, Option.some.injEq]
        constructor
        · rintro rfl; exact .inl ⟨rfl, hr, fun h => by cases h⟩
        · rintro (⟨h, _⟩ | ⟨n', e, _⟩)
          · exact h
          · cases e
    | float x => simp [decInt, hs, Num.intVal]

theorem decNat_ok {m : Nat} {J : JTree} {v : Nat} : decNat m J = .ok v ↔ J = .num (.nat v) ∧ v ≤ m := by
  unfold decNat
  split
  · split
    · rename_i w h
      simp only [Dec.ok.injEq, JTree.num.injEq, Num.nat.injEq]
      constructor
      · rintro rfl; exact ⟨rfl, h⟩
      · rintro ⟨rfl, _⟩; rfl
    · rename_i w h
      simp only [reduceCtorEq, JTree.num.injEq, Num.nat.injEq, false_iff]
      rintro ⟨rfl, h'⟩; exact h h'
  · rename_i hne
    simp only [reduceCtorEq, false_iff]
    rintro ⟨rfl, _⟩; exact hne _ rfl

theorem decDurMember_ok {acc acc' : Option Nat × Option Nat} {m : JTree × JTree} : decDurMember acc m = .ok acc' ↔
    (acc.1 = none ∧ ∃ s, s ≤ u64Max ∧ m = (.str ['s', 'e', 'c', 's'], .num (.nat s)) ∧ acc' = (some s, acc.2)) ∨
    (acc.2 = none ∧ ∃ n, n ≤ 2 ^ 32 - 1 ∧ m = (.str ['n', 'a', 'n', 'o', 's'], .num (.nat n)) ∧ acc' = (acc.1, some n)) := by
  obtain ⟨K, J⟩ := m
  obtain ⟨a, b⟩ := acc
  unfold decDurMember
  cases K with
  | str key =>
    simp only
    split
    · rename_i h; subst h
      cases a with
      | some x => simp
      | none =>
        simp only [Option.isSome_none, Bool.false_eq_true, if_false, Dec.bind_eq_ok, decNat_ok, Prod.mk.injEq, true_and,
          JTree.str.injEq, List.cons.injEq, Char.reduceEq, false_and, and_false, exists_false, or_false]
        constructor
        · rintro ⟨v, ⟨h1, h2⟩, h3⟩; injection h3 with h3; exact ⟨v, h2, h1, h3.symm⟩
        · rintro ⟨v, h1, h2, h3⟩; exact ⟨v, ⟨h2, h1⟩, by rw [h3]⟩
    · rename_i hne
      split
      · rename_i h; subst h
        cases b with
        | some x => simp
        | none =>
          simp only [Option.isSome_none, Bool.false_eq_true, if_false, Dec.bind_eq_ok, decNat_ok, Prod.mk.injEq, true_and,
            JTree.str.injEq, List.cons.injEq, Char.reduceEq, false_and, and_false, exists_false, false_or]
          constructor
          · rintro ⟨v, ⟨h1, h2⟩, h3⟩; injection h3 with h3; exact ⟨v, h2, h1, h3.symm⟩
          · rintro ⟨v, h1, h2, h3⟩; exact ⟨v, ⟨h2, h1⟩, by rw [h3]⟩
      · rename_i hne'
        simp only [reduceCtorEq, Prod.mk.injEq, JTree.str.injEq, hne, hne', false_and, and_false, exists_false, or_false]
  | _ => simp

theorem decDur_members (ms : List (JTree × JTree)) (s : Nat) (n : Option Nat) :
    foldD decDurMember (none, none) ms = .ok (some s, n) ↔
      s ≤ u64Max ∧ n.getD 0 ≤ 2 ^ 32 - 1 ∧
      ((∃ m, n = some m ∧ (ms = [(.str ['s', 'e', 'c', 's'], .num (.nat s)), (.str ['n', 'a', 'n', 'o', 's'], .num (.nat m))] ∨
        ms = [(.str ['n', 'a', 'n', 'o', 's'], .num (.nat m)), (.str ['s', 'e', 'c', 's'], .num (.nat s))])) ∨
       (n = none ∧ ms = [(.str ['s', 'e', 'c', 's'], .num (.nat s))])) := by
  match ms with
  | [] => simp [foldD]
  | [m] =>
    simp only [foldD, Dec.bind_eq_ok, decDurMember_ok]
    constructor
    · rintro ⟨acc, (⟨_, x, h1, rfl, rfl⟩ | ⟨_, x, h1, rfl, rfl⟩), h⟩
      · injection h with h
        injection h with h h'
        injection h with h
        subst h h'
        exact ⟨h1, by simp, .inr ⟨rfl, rfl⟩⟩
      · injection h with h
        cases h
    · rintro ⟨h1, h2, (⟨m', _, (h | h)⟩ | ⟨rfl, h⟩)⟩
      · cases h
      · cases h
      · cases h
        exact ⟨(some s, none), .inl ⟨trivial, s, h1, rfl, rfl⟩, rfl⟩
  | [m, m'] =>
    simp only [foldD, Dec.bind_eq_ok, decDurMember_ok]
    constructor
    · rintro ⟨acc, (⟨_, x, h1, rfl, rfl⟩ | ⟨_, x, h1, rfl, rfl⟩), acc', (⟨h2, y, h3, rfl, rfl⟩ | ⟨h2, y, h3, rfl, rfl⟩), h⟩
      · cases h2
      · injection h with h; cases h
        exact ⟨h1, h3, .inl ⟨y, rfl, .inl rfl⟩⟩
      · injection h with h; cases h
        exact ⟨h3, h1, .inl ⟨x, rfl, .inr rfl⟩⟩
      · cases h2
    · rintro ⟨h1, h2, (⟨x, rfl, (h | h)⟩ | ⟨rfl, h⟩)⟩
      · cases h
        exact ⟨(some s, none), .inl ⟨trivial, s, h1, rfl, rfl⟩, (some s, some x), .inr ⟨rfl, x, h2, rfl, rfl⟩, rfl⟩
      · cases h
        exact ⟨(none, some x), .inr ⟨trivial, x, h2, rfl, rfl⟩, (some s, some x), .inl ⟨rfl, s, h1, rfl, rfl⟩, rfl⟩
      · cases h
  | m :: m' :: m'' :: ms =>
    simp only [foldD, Dec.bind_eq_ok, decDurMember_ok]
    constructor
    · rintro ⟨acc, (⟨_, x, h1, rfl, rfl⟩ | ⟨_, x, h1, rfl, rfl⟩), acc', (⟨h2, y, h3, rfl, rfl⟩ | ⟨h2, y, h3, rfl, rfl⟩),
        acc'', (⟨h4, z, h5, rfl, rfl⟩ | ⟨h4, z, h5, rfl, rfl⟩), h⟩ <;> simp_all
    · rintro ⟨h1, h2, (⟨x, rfl, (h | h)⟩ | ⟨rfl, h⟩)⟩ <;> cases h

theorem decDur_iff (J : JTree) (a b : Nat) : decDur (some J) = .ok (a, b) ↔
    ∃ ms tr s n, J = .obj ms tr ∧ JDurMembers ms s n ∧ n ≤ 1000000000 ∧ s + n / 1000000000 ≤ u64Max ∧
      a = s + n / 1000000000 ∧ b = n % 1000000000 := by
  cases J with
  | obj ms tr =>
    simp only [decDur]
    rw [Dec.bind_eq_ok]
    constructor
    · rintro ⟨⟨s, n⟩, h1, h2⟩
      cases s with
      | none => cases h2
      | some s =>
        simp only at h2
        obtain ⟨h3, h4, h5⟩ := (decDur_members ms s n).1 h1
        refine ⟨ms, tr, s, n.getD 0, rfl, ?_, ?_⟩
        · rcases h5 with ⟨m, rfl, (h | h)⟩ | ⟨rfl, h⟩
          · exact .inl h
          · exact .inr (.inl h)
          · exact .inr (.inr ⟨h, rfl⟩)
        · generalize n.getD 0 = x at *
          split at h2
          · cases h2
          · split at h2
            · injection h2 with h2; injection h2 with h2 h2'; omega
            · split at h2
              · injection h2 with h2; injection h2 with h2 h2'; omega
              · cases h2
    · rintro ⟨ms', tr', s, n, e, h1, h2, h3, rfl, rfl⟩
      cases e
      have main : ∀ o : Option Nat, o.getD 0 = n →
          (match (some s, o).1 with
          | none => Dec.err
          | some secs =>
            if (some s, o).2.getD 0 > 1000000000 then Dec.err
            else if (some s, o).2.getD 0 < 1000000000 then .ok (secs, (some s, o).2.getD 0)
            else if secs + 1 ≤ u64Max then .ok (secs + 1, 0)
            else .panic) = Dec.ok (s + n / 1000000000, n % 1000000000) := by
        intro o ho
        simp only [ho]
        rw [if_neg (by omega)]
        split
        · congr 2 <;> omega
        · rw [if_pos (by omega)]
          congr 2 <;> omega
      rcases h1 with h | h | ⟨h, rfl⟩
      · exact ⟨(some s, some n), (decDur_members _ _ _).2 ⟨by omega, by simp; omega, .inl ⟨n, rfl, .inl h⟩⟩, main _ rfl⟩
      · exact ⟨(some s, some n), (decDur_members _ _ _).2 ⟨by omega, by simp; omega, .inl ⟨n, rfl, .inr h⟩⟩, main _ rfl⟩
      · exact ⟨(some s, none), (decDur_members _ _ _).2 ⟨by omega, by simp, .inr ⟨rfl, h⟩⟩, main _ rfl⟩
  | _ => simp [decDur]

end NS
