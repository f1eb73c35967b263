import Verif.Lemmas.BinEvolve
import Verif.Props.Bin
/-!
# C81: bytes of another version of a program

`BinEvolution`, `BinTyEvo` (`Verif/Spec/BinEvolve.lean`) list the changes that keep the bytes: renaming, changing
between structs, tuple structs, tuples and arrays, adding and removing fields marked `skip`, adding variants at the
end, boxes, newtypes, `usize` and `u64`, collections.  `C81_bin_new_field_at_end` and `C81_bin_missing_field` say
what happens when a field is added at the end of the outermost struct.
-/
namespace NS
variable {env env' : Env} {R : Ty → Ty → Prop} {chk : Bool}

/-- **C81**: corresponding values of the two programs have the same bytes. -/
theorem C81_bin_same_bytes {t u : Ty} {v w : Val} (h : BinMigrates env env' t u v w) :
    serializeBin env t v = serializeBin env' u w := h.bytes

/-- **C81**: for every value of the old program there is a corresponding value of the new type, which
`deserialize_bin` in the new program reads from the bytes written by the old program — if it is a possible value
there (its collections can be allocated, keys are still distinct and in order). -/
theorem C81_bin_evolution (hk' : LawfulKeys env') (hs' : EnumsSmall env') (hEv : BinEvolution env env' R) {t u : Ty} {v v' : Val}
    (hu : BinTyEvo env env' R t u) (heq : EqUpToSkip env t v v') (hT : HasTy env t v') (hX : BinExact env t v')
    (hlen : (serializeBin env t v).length ≤ isizeMax) :
    ∃ w, BinMigrates env env' t u v' w ∧ (HasTy env' u w →
      Returns (fun n => deserializeBin env' chk n u (serializeBin env t v)) (.ok w (serializeBin env t v).length)) := by
  obtain ⟨w, hw⟩ := binMigrates_exists hEv _ t u hu v' (Nat.le_refl _) hT
  refine ⟨w, hw, fun hT' => ?_⟩
  have e : serializeBin env t v = serializeBin env' u w := by
    rw [← C81_bin_same_bytes hw]; exact serBin_upToSkip v t v' heq
  rw [e] at hlen ⊢
  exact C01_bin_round_trip_exact hk' hs' u w hT' (hw.exact hX) hlen

theorem serParts_append (ps qs : List Part) (vs ws : List Val) (h : vs.length = ps.length) :
    serParts env (ps ++ qs) (vs ++ ws) = serParts env ps vs ++ serParts env qs ws := by
  induction ps generalizing vs with
  | nil => cases vs with
    | nil => simp [serParts]
    | cons => simp at h
  | cons p ps ih =>
    cases vs with
    | nil => simp at h
    | cons v vs =>
      obtain ⟨t, d⟩ := p
      simp only [List.length_cons, Nat.add_right_cancel_iff] at h
      cases d <;> simp [serParts, ih vs h]

theorem exactParts_append (ps qs : List Part) (vs ws : List Val) (h : vs.length = ps.length)
    (hX : ExactParts env (ps ++ qs) (vs ++ ws)) : ExactParts env ps vs := by
  induction ps generalizing vs with
  | nil => trivial
  | cons p ps ih =>
    cases vs with
    | nil => simp at h
    | cons v vs =>
      obtain ⟨t, d⟩ := p
      simp only [List.length_cons, Nat.add_right_cancel_iff] at h
      cases d
      · exact ⟨hX.1, ih vs h hX.2⟩
      · exact ⟨hX.1, ih vs h hX.2⟩

/-- **C81** (a program that does not know fields added at the end): if the writer's struct has the parts of the reader's
struct and then more, the reader reads the parts it knows and ignores the rest. -/
theorem C81_bin_new_field_at_end (hk' : LawfulKeys env') (hs' : EnumsSmall env') {t u : Ty} {ps more qs : List Part}
    (ht : env.parts t = some (ps ++ more)) (hu : env'.parts u = some qs) {vs xs ws : List Val} (hxs : xs.length = more.length)
    (hM : PartsMigrate (BinMigrates env env') ps qs vs ws) (hX : BinExact env t (fromParts t (vs ++ xs)))
    (hT' : HasTy env' u (fromParts u ws)) (hlen : (serializeBin env t (fromParts t (vs ++ xs))).length ≤ isizeMax) :
    Decodes (fun n => deserializeBin env' chk n u (serializeBin env t (fromParts t (vs ++ xs)))) (fromParts u ws) := by
  obtain ⟨l1, l2⟩ := hM.lengths
  have e : serializeBin env t (fromParts t (vs ++ xs)) = [] ++ serializeBin env' u (fromParts u ws) ++ serParts env more xs := by
    unfold serializeBin
    rw [serBin_parts ht _ (by simp [l1, hxs]), serBin_parts hu _ l2, serParts_append _ _ _ _ l1,
      hM.bytes fun a b x y h => h.bytes]
    simp
  have hX' : BinExact env' u (fromParts u ws) := by
    rw [exact_parts hu _ l2]
    refine hM.exact (fun a b x y h => h.exact) ?_
    rw [exact_parts ht _ (by simp [l1, hxs])] at hX
    exact exactParts_append _ _ _ _ l1 hX
  rw [e] at hlen ⊢
  obtain ⟨N, hN⟩ := C02_bin_embedded (chk := chk) hk' hs' u _ hT' hX' [] (serParts env more xs) hlen
  exact ⟨N, fun n hn => ⟨_, hN n hn⟩⟩

/-- **C81** (data without the fields added at the end): if the reader's struct has the parts of the writer's struct and
then more, and those take at least one byte (an `Option`, a `Vec`, ..), the reader returns an error. -/
theorem C81_bin_missing_field (hk : LawfulKeys env) (hs : EnumsSmall env) {t u : Ty} {ps more : List Part}
    (ht : env.parts t = some ps) (hu : env.parts u = some (ps ++ more)) {vs xs : List Val} (hvs : vs.length = ps.length)
    (hT : HasTy env u (fromParts u (vs ++ xs))) (hX : BinExact env u (fromParts u (vs ++ xs))) (hxs : xs.length = more.length)
    (hne : serializeBin env u (fromParts u (vs ++ xs)) ≠ serializeBin env t (fromParts t vs))
    (hlen : (serializeBin env u (fromParts u (vs ++ xs))).length ≤ isizeMax) :
    Fails (fun n => deserializeBin env chk n u (serializeBin env t (fromParts t vs))) := by
  refine C03_bin_truncation hk hs u _ hT hX hlen _ ?_ fun h => hne h.symm
  unfold serializeBin
  rw [serBin_parts ht _ hvs, serBin_parts hu _ (by simp [hvs, hxs]), serParts_append _ _ _ _ hvs]
  exact List.prefix_append _ _

/-! ## Examples

The second version of `Node` and `E` (`Verif/Props/Examples.lean`):
```rust
struct Id(u16);
struct Node(Id, Option<Node2>);        // the box is inside
struct Node2 { inner: Box<Node> }
enum E { A(), B { x: i8, s: String }, C(Node, SystemTime), D(bool) }
```
-/

/-- The new program. -/
noncomputable def exBEnv2 : Env := lawEnv
  [ .tuple [.named 2, .option (.named 3)] false,
    .enum [ { name := chars "A", shape := .tuple [] },
      { name := chars "B", shape := .named [ { name := chars "x", ty := .int .i8 }, { name := chars "s", ty := .str } ] },
      { name := chars "C", shape := .tuple [.named 0, .time] },
      { name := chars "D", shape := .tuple [.bool] } ],
    .tuple [.int .u16] false,
    .struct [ { name := chars "inner", ty := .box (.named 0) } ] false false ] []

/-- `Node` and `E` have new versions with the same numbers. -/
inductive ExVersions : Ty → Ty → Prop where
  | node : ExVersions (.named 0) (.named 0)
  | e : ExVersions (.named 1) (.named 1)

theorem exBEvolution : BinEvolution exEnv exBEnv2 ExVersions := by
  intro t u h
  cases h with
  | node =>
    refine .inl ⟨_, _, rfl, rfl, ?_⟩
    exact .keep (.wrap (u := .int .u16) rfl (.same trivial)) (.drop (.keep (.option (.unboxed
      (.wrap (u := .box (.named 0)) rfl (.boxed (.version .node))))) .nil))
  | e =>
    refine .inr ⟨_, _, rfl, rfl, ?_⟩
    intro n ts h
    match n with
    | 0 => injection h with h; subst h; exact ⟨_, rfl, .nil⟩
    | 1 => injection h with h; subst h; exact ⟨_, rfl, .keep (.same trivial) (.keep (.same trivial) .nil)⟩
    | 2 => injection h with h; subst h; exact ⟨_, rfl, .keep (.version .node) (.keep (.same trivial) .nil)⟩
    | n + 3 => cases h

theorem exBEnv2_small : EnumsSmall exBEnv2 := by
  intro i vars h
  match i with
  | 0 | 2 | 3 => cases h
  | 1 => injection h with h; injection h with h; subst h; decide
  | n + 4 => cases h

/-- The old value `vec![E::A, E::B(-3, "é"), E::C { .. }]` as a `LinkedList` of the new `E`. -/
def exVal2 : Val := .seq [.variant 0 [], .variant 1 [.int (-3), .str [Char.ofNat 233]],
  .variant 2 [.struct [.struct [.int 513], .some (.struct [.box (.struct [.struct [.int 7], .none])])], .time 5 250000000]]

theorem exVal_migrates : BinMigrates exEnv exBEnv2 (.vec (.named 1)) (.linked (.named 1)) exVal exVal2 := by
  have id' : ∀ i : Int, BinMigrates exEnv exBEnv2 (.int .u16) (.named 2) (.int i) (.struct [.int i]) :=
    fun i => .wrap (u' := .named 2) (u := .int .u16) rfl (.same trivial)
  have last : BinMigrates exEnv exBEnv2 (.named 0) (.named 0) (.struct [.int 7, .str [], .none]) (.struct [.struct [.int 7], .none]) :=
    .parts (t := .named 0) (u := .named 0) (BinMigrates exEnv exBEnv2) rfl rfl (.keep (id' 7) (.drop (.keep .none .nil))) fun _ _ _ _ h => h
  have node : BinMigrates exEnv exBEnv2 (.named 0) (.named 0) exNodeVal'
      (.struct [.struct [.int 513], .some (.struct [.box (.struct [.struct [.int 7], .none])])]) :=
    .parts (t := .named 0) (u := .named 0) (BinMigrates exEnv exBEnv2) rfl rfl (.keep (id' 513) (.drop (.keep (.some (.unboxed
      (.wrap (u' := .named 3) (u := .box (.named 0)) rfl (.boxed last)))) .nil))) fun _ _ _ _ h => h
  refine .list (a := .named 1) (b := .named 1) [(.variant 0 [], .variant 0 []), (_, _), (_, _)] .vec .linked ?_
  refine List.forall_mem_cons.2 ⟨?_, List.forall_mem_cons.2 ⟨?_, List.forall_mem_cons.2 ⟨?_, by simp⟩⟩⟩
  · exact .variant (n := 0) (BinMigrates exEnv exBEnv2) rfl rfl rfl rfl .nil fun _ _ _ _ h => h
  · exact .variant (n := 1) (BinMigrates exEnv exBEnv2) rfl rfl rfl rfl (.keep (.same trivial) (.keep (.same trivial) .nil)) fun _ _ _ _ h => h
  · exact .variant (n := 2) (BinMigrates exEnv exBEnv2) rfl rfl rfl rfl (.keep node (.keep (.same trivial) .nil)) fun _ _ _ _ h => h

/-- `C81_bin_same_bytes`. -/
example : serializeBin exEnv (.vec (.named 1)) exVal = serializeBin exBEnv2 (.linked (.named 1)) exVal2 :=
  C81_bin_same_bytes exVal_migrates

/-- `C81_bin_evolution`: its hypotheses, and that the corresponding value is a possible value. -/
example : BinEvolution exEnv exBEnv2 ExVersions ∧ BinTyEvo exEnv exBEnv2 ExVersions (.vec (.named 1)) (.linked (.named 1)) ∧
    HasTy exEnv (.vec (.named 1)) exVal ∧ BinExact exEnv (.vec (.named 1)) exVal ∧ HasTy exBEnv2 (.linked (.named 1)) exVal2 := by
  refine ⟨exBEvolution, .list .vec .linked (.version .e), ?_, ?_, ?_⟩
  · simp [exVal, exNodeVal', HasTy, AllTy, TysTy, FieldsTy, exNode, exEnum, IntKind.inRange,
      IntKind.lo, IntKind.hi, IntKind.signed, IntKind.bytes, u64Max, isizeMax]
  · simp [exVal, exNodeVal', BinExact, Holds, HoldsAll, HoldsTys, HoldsFields, exNode, exEnum]
  · simp [exVal2, HasTy, AllTy, TysTy, FieldsTy, exBEnv2, lawEnv, IntKind.inRange,
      IntKind.lo, IntKind.hi, IntKind.signed, IntKind.bytes, u64Max]

/-- A program with `struct P { a: u16, b: bool }` and `struct Q { a: u16, b: bool, c: Option<u8> }`. -/
noncomputable def exPQ : Env := lawEnv
  [ .struct [ { name := chars "a", ty := .int .u16 }, { name := chars "b", ty := .bool } ] false false,
    .struct [ { name := chars "a", ty := .int .u16 }, { name := chars "b", ty := .bool },
      { name := chars "c", ty := .option (.int .u8), optSyn := true } ] false false ] []

theorem exPQ_small : EnumsSmall exPQ := by
  intro i vars h
  match i with
  | 0 | 1 => cases h
  | n + 2 => cases h

/-- `C81_bin_new_field_at_end`: a `Q` read as a `P`. -/
example : Decodes (fun n => deserializeBin exPQ true n (.named 0)
      (serializeBin exPQ (.named 1) (.struct [.int 258, .bool true, .some (.int 9)]))) (.struct [.int 258, .bool true]) := by
  refine C81_bin_new_field_at_end (t := .named 1) (u := .named 0) (ps := [plain (.int .u16), plain .bool])
    (more := [plain (.option (.int .u8))]) (vs := [.int 258, .bool true]) (xs := [.some (.int 9)]) (ws := [.int 258, .bool true])
    (lawEnv_lawful _ _) exPQ_small rfl rfl rfl (.keep (.same trivial) (.keep (.same trivial) .nil)) ?_ ?_ ?_
  · simp [fromParts, BinExact, Holds, exPQ, lawEnv, HoldsFields]
  · simp [fromParts, HasTy, FieldsTy, exPQ, lawEnv, IntKind.inRange, IntKind.lo, IntKind.hi, IntKind.signed, IntKind.bytes]
  · decide

/-- `C81_bin_missing_field`: a `P` is not a `Q`. -/
example : Fails (fun n => deserializeBin exPQ true n (.named 1) (serializeBin exPQ (.named 0) (.struct [.int 258, .bool true]))) := by
  refine C81_bin_missing_field (t := .named 0) (u := .named 1) (ps := [plain (.int .u16), plain .bool])
    (more := [plain (.option (.int .u8))]) (vs := [.int 258, .bool true]) (xs := [.none])
    (lawEnv_lawful _ _) exPQ_small rfl rfl rfl ?_ ?_ rfl ?_ ?_
  · simp [fromParts, HasTy, FieldsTy, exPQ, lawEnv, IntKind.inRange, IntKind.lo, IntKind.hi, IntKind.signed, IntKind.bytes]
  · simp [fromParts, BinExact, Holds, exPQ, lawEnv, HoldsFields]
  · decide
  · decide

end NS
