import Verif.Lemmas.BinHalts
import Verif.Props.Bin
/-! # Properties C68, C69: what bytes stand for, for every input -/
namespace NS
variable {env : Env} {chk : Bool}

/-! ## C68 -/

/-- **C68**: at every offset of every input the reader of `t` returns `v` and advances to `o'` exactly if the bytes
from there to `o'` stand for `v`. -/
theorem C68_bin_reads_exactly (hk : LawfulKeys env) (t : Ty) (d : List Byte) (hd : d.length ≤ isizeMax) (o : Nat)
    (ho : o ≤ d.length) (v : Val) (o' : Nat) :
    Returns (fun n => deBin env chk d n t o) (.ok v o') ↔
      ∃ bs, At d o bs ∧ o' = o + bs.length ∧ BinSays env t bs v := by
  constructor
  · rintro ⟨n, h⟩
    exact Takes.deBin hk hd n t o v o' ho (h n (Nat.le_refl _))
  · rintro ⟨bs, h1, rfl, h2⟩
    exact h2.gives hk hd o h1

/-- **C68** (`deserialize_bin`): it returns `v` exactly if the input begins with bytes that stand for `v`; what
follows them is ignored. -/
theorem C68_bin_deserialize_exactly (hk : LawfulKeys env) (t : Ty) (d : List Byte) (hd : d.length ≤ isizeMax) (v : Val) :
    Decodes (fun n => deserializeBin env chk n t d) v ↔ ∃ bs rest, d = bs ++ rest ∧ BinSays env t bs v := by
  constructor
  · rintro ⟨n, h⟩
    obtain ⟨o', h⟩ := h n (Nat.le_refl _)
    obtain ⟨bs, ⟨p, q, e1, e2⟩, _, h2⟩ := Takes.deBin hk hd n t 0 v o' (Nat.zero_le _) h
    obtain rfl := List.length_eq_zero_iff.1 e2
    exact ⟨bs, q, by simpa using e1, h2⟩
  · rintro ⟨bs, rest, rfl, h⟩
    obtain ⟨N, hN⟩ := h.gives (chk := chk) hk hd 0 ⟨[], rest, by simp, rfl⟩
    exact ⟨N, fun n hn => ⟨_, hN n hn⟩⟩

/-- **C68** (one reading): of two beginnings of an input that stand for values of a type, both are the same and stand
for the same value. -/
theorem C68_bin_reading_unique (hk : LawfulKeys env) {t : Ty} {bs bs' rest rest' : List Byte} {v v' : Val}
    (hlen : (bs ++ rest).length ≤ isizeMax) (e : bs ++ rest = bs' ++ rest') (h : BinSays env t bs v)
    (h' : BinSays env t bs' v') : bs = bs' ∧ v = v' := by
  have g := h.gives (chk := true) hk hlen 0 ⟨[], rest, by simp, rfl⟩
  have g' := h'.gives (chk := true) hk (d := bs ++ rest) hlen 0 ⟨[], rest', by simpa using e, rfl⟩
  have := Returns.unique g g'
  simp only [Nat.zero_add, Out.ok.injEq] at this
  exact ⟨(List.append_inj e this.2).1, this.1⟩

/-- **C68** (what is written): the bytes written for a value stand for that value. -/
theorem C68_bin_written_says (hk : LawfulKeys env) (hs : EnumsSmall env) (t : Ty) (v : Val) (hT : HasTy env t v)
    (hE : BinExact env t v) (hlen : (serializeBin env t v).length ≤ isizeMax) :
    BinSays env t (serializeBin env t v) v := by
  have h := C01_bin_round_trip_exact (chk := true) hk hs t v hT hE hlen
  obtain ⟨bs, ⟨p, q, e1, e2⟩, e3, h⟩ := (C68_bin_reads_exactly hk t _ hlen 0 (Nat.zero_le _) v _).1 h
  obtain rfl := List.length_eq_zero_iff.1 e2
  rw [Nat.zero_add] at e3
  have hq : q = [] := by
    have := congrArg List.length e1
    simp only [List.nil_append, List.length_append] at this
    exact List.length_eq_zero_iff.1 (by omega)
  subst hq
  rw [e1]
  simpa using h

/-! ## C69 -/

/-- **C69**: reading bytes always stops: `deserialize_bin` returns a value or an error, or panics (C05), on every
input and for every type that does not contain itself unconditionally. -/
theorem C69_bin_terminates (hp : BinProg env) (hi : Inhabitable env) {t : Ty} (ht : BinWf env t) (d : List Byte)
    (hd : d.length ≤ isizeMax) : ∃ r, r ≠ .oof ∧ Returns (fun n => deserializeBin env chk n t d) r := by
  obtain ⟨n, h⟩ := deBin_stops (chk := chk) hp hi hd (d.length + 1) 0 (by omega) t ht
  exact ⟨_, (h 0 (Nat.le_refl _) (Nat.zero_le _)).1, deBin_returns rfl (h 0 (Nat.le_refl _) (Nat.zero_le _)).1⟩

/-- **C69**: an error is returned exactly if no beginning of the input stands for a value, unless the input has, for
some type in `t`, one of the shapes of C05 that panic. -/
theorem C69_bin_rejects_iff (hk : LawfulKeys env) (hp : BinProg env) (hi : Inhabitable env) {t : Ty} (ht : BinWf env t)
    (d : List Byte) (hd : d.length ≤ isizeMax) (hno : ∀ u p, Occurs env t u → ¬ PanicsAt env chk d u p) :
    Fails (fun n => deserializeBin env chk n t d) ↔ ¬ ∃ bs rest v, d = bs ++ rest ∧ BinSays env t bs v := by
  obtain ⟨r, hr, h⟩ := C69_bin_terminates (chk := chk) hp hi ht d hd
  constructor
  · rintro ⟨e, s, h'⟩ ⟨bs, rest, v, hb⟩
    obtain ⟨N, g⟩ := (C68_bin_deserialize_exactly (chk := chk) hk t d hd v).2 ⟨bs, rest, hb⟩
    obtain ⟨N', g'⟩ := h'
    obtain ⟨o', g⟩ := g (max N N') (Nat.le_max_left _ _)
    have g' := g' (max N N') (Nat.le_max_right _ _)
    rw [g] at g'
    cases g'
  · intro hn
    cases r with
    | ok v o' =>
      obtain ⟨N, g⟩ := h
      obtain ⟨bs, rest, hb⟩ := (C68_bin_deserialize_exactly (chk := chk) hk t d hd v).1 ⟨N, fun n hn => ⟨o', g n hn⟩⟩
      exact absurd ⟨bs, rest, v, hb⟩ hn
    | err e s => exact ⟨e, s, h⟩
    | panic =>
      obtain ⟨N, g⟩ := h
      obtain ⟨u, p, h1, h2⟩ := C05_bin_panics_only t d hd N (g N (Nat.le_refl _))
      exact absurd h2 (hno u p h1)
    | oof => exact absurd rfl hr

/-- **C69** (the exception): the reader of `struct T(Box<T>)` never returns, whatever the input. -/
theorem C69_bin_endless_type {i : Nat} {tr : Bool} (h : env.defs[i]? = some (.tuple [.box (.named i)] tr)) (d : List Byte) :
    Diverges (fun n => deserializeBin env chk n (.named i) d) := by
  have : ∀ n o, deBin env chk d n (.named i) o = .oof := by
    intro n
    induction n using Nat.strongRecOn with
    | ind n ih =>
    intro o
    match n with
    | 0 => rfl
    | 1 => rw [deBin, h]; rfl
    | n + 2 =>
      rw [deBin, h]
      have e : deBin env chk d (n + 1) (.box (.named i)) o = .oof := by
        rw [deBin]; exact M.bind_oof (ih n (by omega) o)
      exact M.bind_oof (M.bind_oof e)
  exact fun n => this n 0

/-! ## Examples -/

/-- `Node` and `E` of `Verif/Props/Examples.lean`. -/
theorem exEnv_prog : BinProg exEnv := by
  constructor
  · intro df h t ht
    simp only [exEnv_defs, List.mem_cons, List.not_mem_nil, or_false] at h
    rcases h with rfl | rfl
    · simp [exNode, Def.types] at ht
      rcases ht with rfl | rfl | rfl <;> simp [BinWf]
    · simp [exEnum, Def.types] at ht
      rcases ht with rfl | rfl | rfl | rfl <;> simp [BinWf]
  · intro px h
    have h : px ∈ [_] := h
    simp only [List.mem_cons, List.not_mem_nil, or_false] at h
    subst h
    simp [BinWf]

/-- A rank for a program whose struct and tuple definitions have the ranks `r i` and mention only lower ones. -/
def tyRank (r : Nat → Nat) : Ty → Nat
  | .box t => tyRank r t + 1
  | .array t _ => tyRank r t + 1
  | .pair a b => tyRank r a + tyRank r b + 1
  | .triple a b c => tyRank r a + tyRank r b + tyRank r c + 1
  | .quad a b c d => tyRank r a + tyRank r b + tyRank r c + tyRank r d + 1
  | .named i => r i
  | .proxied _ => 100
  | _ => 0

theorem exEnv_inhabitable : Inhabitable exEnv := by
  refine ⟨tyRank fun i => i + 1, ?_, ?_, ?_, ?_, ?_, ?_, ?_, ?_⟩
  · intro t; simp [tyRank]
  · intro t n; simp [tyRank]
  · intro a b; simp only [tyRank]; omega
  · intro a b c; simp only [tyRank]; omega
  · intro a b c d; simp only [tyRank]; omega
  · intro i fs cd nul h f hf _
    simp only [exEnv_defs] at h
    match i with
    | 0 =>
      simp [exNode] at h
      obtain ⟨rfl, _⟩ := h
      simp at hf
      rcases hf with rfl | rfl | rfl <;> simp [tyRank]
    | 1 => simp [exEnum] at h
    | n + 2 => simp at h
  · intro i ts tr h
    simp only [exEnv_defs] at h
    match i with
    | 0 => simp [exNode] at h
    | 1 => simp [exEnum] at h
    | n + 2 => simp at h
  · intro i px h
    match i with
    | 0 =>
      injection h with h
      subst h
      simp [tyRank]
    | n + 1 => cases h

/-- C68: `B(-3, "é")` in bytes, with a byte left over, read as an `E`. -/
example (v : Val) : Decodes (fun n => deserializeBin exEnv true n (.named 1)
      [1, 0, 253, 2, 0, 0, 0, 0, 0, 0, 0, 0xC3, 0xA9, 77]) v ↔ v = .variant 1 [.int (-3), .str [Char.ofNat 233]] := by
  have hs : BinSays exEnv (.named 1) ([1, 0] ++ ([253] ++ ([2, 0, 0, 0, 0, 0, 0, 0] ++ [0xC3, 0xA9])))
      (.variant 1 [.int (-3), .str [Char.ofNat 233]]) := by
    refine BinSays.tupleVariant (env := exEnv) (p := [1, 0]) [(.int .i8, [253], .int (-3)), (.str, [2, 0, 0, 0, 0, 0, 0, 0] ++ [0xC3, 0xA9], .str [Char.ofNat 233])]
      (vars := [ { name := chars "A", shape := .unit }, { name := chars "B", shape := .tuple [.int .i8, .str] },
        { name := chars "C", shape := .named [ { name := chars "n", ty := .named 0 }, { name := chars "t", ty := .time } ] } ]) (var := { name := chars "B", shape := .tuple [.int .i8, .str] }) (i := 1) rfl rfl rfl rfl ?_
    intro q hq
    simp only [List.mem_cons, List.not_mem_nil, or_false] at hq
    rcases hq with rfl | rfl
    · exact .int rfl (by decide) (by decide)
    · exact BinSays.str (s := [Char.ofNat 233]) rfl (by decide +kernel)
  rw [C68_bin_deserialize_exactly exEnv_lawful _ _ (by decide)]
  constructor
  · rintro ⟨bs, rest, e, h⟩
    exact (C68_bin_reading_unique exEnv_lawful (rest := [77]) (by decide) e hs h).2.symm
  · rintro rfl
    exact ⟨_, [77], rfl, hs⟩

/-- C68: bytes that the serializer does not write: an `Option<bool>` with the tags `1` and `7`. -/
example : BinSays exEnv (.option .bool) [1, 7] (.some (.bool true)) := .some (.bool (b := 7))

/-- C68: a set with a repeated element has the element once. -/
example : BinSays exEnv (.hset (.int .u8)) [2, 0, 0, 0, 0, 0, 0, 0, 5, 5] (.seq [.int 5]) := by
  have h := BinSays.hset (env := exEnv) (t := .int .u8) (p := [2, 0, 0, 0, 0, 0, 0, 0]) [([5], .int 5), ([5], .int 5)] rfl rfl rfl (by
    intro q hq
    simp only [List.mem_cons, List.not_mem_nil, or_false] at hq
    rcases hq with rfl | rfl <;> exact .int rfl (by decide) (by decide))
  simpa [firsts] using h

/-- C68: what is written for `exNodeVal'`. -/
example : BinSays exEnv (.named 0) (serializeBin exEnv (.named 0) exNodeVal') exNodeVal' := by
  refine C68_bin_written_says exEnv_lawful exEnv_small _ _ ?_ ?_ ?_
  · simp [exNodeVal', HasTy, FieldsTy, exNode, IntKind.inRange, IntKind.lo, IntKind.hi,
      IntKind.signed, IntKind.bytes]
  · simp [exNodeVal', BinExact, Holds, HoldsFields, exNode]
  · have : serializeBin exEnv (.named 0) exNodeVal' = [1, 2, 1, 7, 0, 0] := by
      simp [serializeBin, exNodeVal', serBin, serBinFields, exNode, IntKind.bytes, leBytes, toTwos]
    rw [this]; decide

/-- C69: reading a `Vec<E>` always stops. -/
example (d : List Byte) (hd : d.length ≤ isizeMax) : ∃ r, r ≠ .oof ∧ Returns (fun n => deserializeBin exEnv true n (.vec (.named 1)) d) r :=
  C69_bin_terminates exEnv_prog exEnv_inhabitable (by simp [BinWf]) d hd

/-- C69: a `(u16, Option<bool>)` is rejected exactly if no beginning of the input stands for one. -/
example (d : List Byte) (hd : d.length ≤ isizeMax) : Fails (fun n => deserializeBin exEnv true n (.pair (.int .u16) (.option .bool)) d) ↔
    ¬ ∃ bs rest v, d = bs ++ rest ∧ BinSays exEnv (.pair (.int .u16) (.option .bool)) bs v := by
  refine C69_bin_rejects_iff exEnv_lawful exEnv_prog exEnv_inhabitable (by simp [BinWf]) d hd ?_
  have key : ∀ t u, Occurs exEnv t u → t ∈ [Ty.pair (.int .u16) (.option .bool), .int .u16, .option .bool, .bool] →
      u ∈ [Ty.pair (.int .u16) (.option .bool), .int .u16, .option .bool, .bool] := by
    intro t u h
    induction h with
    | refl => exact id
    | step hc _ ih =>
      intro ht
      refine ih ?_
      simp only [List.mem_cons, List.not_mem_nil, or_false] at ht ⊢
      rcases ht with rfl | rfl | rfl | rfl <;> simp [Component] at hc
      · rcases hc with rfl | rfl <;> simp
      · simp [hc]
  intro u p h hp
  have := key _ _ h (by simp)
  simp only [List.mem_cons, List.not_mem_nil, or_false] at this
  rcases this with rfl | rfl | rfl | rfl <;> exact hp

/-- C69: `struct T(Box<T>)`. -/
example (d : List Byte) : Diverges (fun n => deserializeBin (lawEnv [.tuple [.box (.named 0)] false] []) true n (.named 0) d) :=
  C69_bin_endless_type (i := 0) rfl d

end NS
