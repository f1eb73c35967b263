import Verif.Lemmas.NarrowSer
import Verif.Props.JsonRound
import Verif.Props.RonRound
import Verif.Props.ExamplesText
/-! C100: the text readers on targets with 32-bit pointers. -/
namespace NS
variable {env : Env} {fl : FloatOps}

theorem LawfulKeys.narrow (h : LawfulKeys env) : LawfulKeys env.narrow := ⟨h.1, h.2, h.3, h.4⟩

/-- **C100** (JSON): whatever the text, the type and the fuel, the 32-bit reader accepts, rejects or panics exactly as the 64-bit
reader does, with the same error at the same position, and stops at the same place; only values can differ. -/
theorem C100_json32_same_texts (n : Nat) (t : Ty) (txt : List Char) :
    (W32.deserializeJson env fl n t txt).bare = (deserializeJson env fl n t txt).bare :=
  Par.bare (Par.step fun _ => W32.deJson_par env fl n t) _

/-- **C100** (RON). -/
theorem C100_ron32_same_texts (n : Nat) (t : Ty) (txt : List Char) :
    (W32.deserializeRon env fl n t txt).bare = (deserializeRon env fl n t txt).bare :=
  Par.bare (Par.step fun _ => W32.deRon_par env fl n t) _

theorem decodes_le {f g : Nat → PM Val} {s : PSt} (h : ∀ n, Rel simLe (f n) (g n)) {v : Val} (hd : Decodes (fun n => f n s) v) :
    Decodes (fun n => g n s) v := by
  obtain ⟨n, hn⟩ := hd
  refine ⟨n, fun m hm => ?_⟩
  obtain ⟨s', hs⟩ := hn m hm
  exact ⟨s', (h m).le_ok hs⟩

/-- **C100** (JSON): what reads with `u32` in every place of `usize` reads as the same value on both kinds of targets. -/
theorem C100_json_small_usize {t : Ty} {txt : List Char} {v : Val}
    (h : Decodes (fun n => deserializeJson env.narrow fl n t.narrow txt) v) :
    Decodes (fun n => W32.deserializeJson env fl n t txt) v ∧ Decodes (fun n => deserializeJson env fl n t txt) v :=
  ⟨decodes_le (fun n => Rel.bind (simLe_refl _) fun _ => deJson_narrow32 env fl n t) h,
    decodes_le (fun n => Rel.bind (simLe_refl _) fun _ => deJson_narrow env fl n t) h⟩

/-- **C100** (RON). -/
theorem C100_ron_small_usize {t : Ty} {txt : List Char} {v : Val}
    (h : Decodes (fun n => deserializeRon env.narrow fl n t.narrow txt) v) :
    Decodes (fun n => W32.deserializeRon env fl n t txt) v ∧ Decodes (fun n => deserializeRon env fl n t txt) v :=
  ⟨decodes_le (fun n => Rel.bind (simLe_refl _) fun _ => deRon_narrow32 env fl n t) h,
    decodes_le (fun n => Rel.bind (simLe_refl _) fun _ => deRon_narrow env fl n t) h⟩

/-- The conditions on names do not depend on the types. -/
theorem JsonEnvOk.narrow (h : JsonEnvOk env) : JsonEnvOk env.narrow := by
  intro i d hd
  simp only [Env.narrow, List.getElem?_map, Option.map_eq_some_iff] at hd
  obtain ⟨d0, h0, rfl⟩ := hd
  have := h i d0 h0
  cases d0 with
  | struct fs cd nul =>
    obtain ⟨h1, h2, h3, h4⟩ := this
    constructor
    · intro f hf hs
      obtain ⟨g, hg, rfl⟩ := List.mem_map.1 hf
      exact h1 g hg hs
    · rw [List.filter_map]
      exact List.pairwise_map.2 (h2.imp fun h => h)
    · intro f hf hs
      obtain ⟨g, hg, rfl⟩ := List.mem_map.1 hf
      exact h3 g hg hs
    · intro f hf hs ho
      obtain ⟨g, hg, rfl⟩ := List.mem_map.1 hf
      exact h4 g hg hs ho
  | tuple => trivial
  | enum vars =>
    obtain ⟨h1, h2, h3⟩ := this
    have hu : ∀ v : Variant, v.narrow.shape = .unit ↔ v.shape = .unit := by
      intro v
      simp only [Variant.narrow]
      cases v.shape <;> simp
    refine ⟨fun v hv => ?_, List.pairwise_map.2 (h2.imp fun {v w} h hs => h (by rw [← hu v, ← hu w]; exact hs)), fun v hv fs hs => ?_⟩
    · obtain ⟨w, hw, rfl⟩ := List.mem_map.1 hv
      exact h1 w hw
    · obtain ⟨w, hw, rfl⟩ := List.mem_map.1 hv
      simp only [Variant.narrow] at hs
      cases hsh : w.shape with
      | unit => rw [hsh] at hs; cases hs
      | tuple ts => rw [hsh] at hs; cases hs
      | named gs =>
        rw [hsh] at hs
        injection hs with hs
        subst hs
        obtain ⟨k1, k2, k3, k4, k5, k6⟩ := h3 w hw gs hsh
        have back : ∀ {P : Field → Prop}, (∀ g ∈ gs, P g.narrow) → ∀ f ∈ gs.map Field.narrow, P f := by
          intro P h f hf
          obtain ⟨g, hg, rfl⟩ := List.mem_map.1 hf
          exact h g hg
        exact ⟨back k1, back k2, back k3, List.pairwise_map.2 (k4.imp fun h => h), back k5, back k6⟩

theorem RonFieldsOk.narrow {fs : List Field} (h : RonFieldsOk fs) : RonFieldsOk (fs.map Field.narrow) := by
  obtain ⟨h1, h2, h3⟩ := h
  constructor
  · intro f hf hs
    obtain ⟨g, hg, rfl⟩ := List.mem_map.1 hf
    exact h1 g hg hs
  · exact List.pairwise_map.2 (h2.imp fun h => h)
  · intro f hf hs ho
    obtain ⟨g, hg, rfl⟩ := List.mem_map.1 hf
    exact h3 g hg hs ho

theorem RonEnvOk.narrow (h : RonEnvOk env) : RonEnvOk env.narrow := by
  intro i d hd
  simp only [Env.narrow, List.getElem?_map, Option.map_eq_some_iff] at hd
  obtain ⟨d0, h0, rfl⟩ := hd
  have := h i d0 h0
  cases d0 with
  | struct fs cd nul => exact RonFieldsOk.narrow this
  | tuple => trivial
  | enum vars =>
    obtain ⟨h1, h2, h3⟩ := this
    refine ⟨fun v hv => ?_, List.pairwise_map.2 (h2.imp fun h => h), fun v hv fs hs => ?_⟩
    · obtain ⟨w, hw, rfl⟩ := List.mem_map.1 hv
      exact h1 w hw
    · obtain ⟨w, hw, rfl⟩ := List.mem_map.1 hv
      simp only [Variant.narrow] at hs
      cases hsh : w.shape with
      | unit => rw [hsh] at hs; cases hs
      | tuple ts => rw [hsh] at hs; cases hs
      | named gs =>
        rw [hsh] at hs
        injection hs with hs
        subst hs
        obtain ⟨k1, k2⟩ := h3 w hw gs hsh
        refine ⟨k1.narrow, fun f hf => ?_⟩
        obtain ⟨g, hg, rfl⟩ := List.mem_map.1 hf
        exact k2 g hg

/-- **C100** (JSON): a value that a 32-bit target can hold (one of the type with `u32` for `usize`) survives the way through JSON
to either kind of target, whichever kind wrote it. -/
theorem C100_json_round_trip (hk : LawfulKeys env) (hfl : FloatLaws fl) (hE : JsonEnvOk env) {t : Ty} {v v' : Val}
    (hs : SkipEq env.narrow false t.narrow v v') (hT : HasTy env.narrow t.narrow v') (hX : JsonExact env.narrow t.narrow v') {chk : Bool}
    {txt : List Char} (h : serializeJson env fl chk t v = some txt) :
    Decodes (fun n => W32.deserializeJson env fl n t txt) v' ∧ Decodes (fun n => deserializeJson env fl n t txt) v' :=
  C100_json_small_usize (C21_json_roundtrip hk.narrow hfl hE.narrow hs hT hX ((serializeJson_narrow env fl chk t v).trans h))

/-- **C100** (RON). -/
theorem C100_ron_round_trip (hk : LawfulKeys env) (hfl : FloatLaws fl) (hE : RonEnvOk env) {t : Ty} {v v' : Val}
    (hs : SkipEq env.narrow false t.narrow v v') (hT : HasTy env.narrow t.narrow v') (hX : RonExact env.narrow t.narrow v') {chk : Bool}
    {txt : List Char} (h : serializeRon env fl chk t v = some txt) :
    Decodes (fun n => W32.deserializeRon env fl n t txt) v' ∧ Decodes (fun n => deserializeRon env fl n t txt) v' :=
  C100_ron_small_usize (C40_ron_roundtrip hk.narrow hfl hE.narrow hs hT hX ((serializeRon_narrow env fl chk t v).trans h))

/-- The two readers of a `usize`. -/
theorem deInt_usize (nx : PM Unit) :
    Par (fun a b => ∃ i : Nat, b = .int i ∧ a = .int (i % 2 ^ 32 : Nat)) (W32.deInt nx .usize) (NS.deInt nx .usize) := by
  have h1 : (IntKind.hi .usize).toNat = u64Max := by decide
  show Par _ (u64Range u64Max >>= fun v => nx >>= fun _ => pure (Val.int (v % 2 ^ 32 : Nat)))
    (u64Range (IntKind.hi .usize).toNat >>= fun v => nx >>= fun _ => pure (Val.int (castInt .usize v)))
  rw [h1]
  refine Par.bind (V := fun a b => a = b ∧ b ≤ u64Max) ?_ ?_
  · intro s
    have e : ∀ m, u64Range m s = (match s.tok with
        | .u64 v => if v > m then errRange (showNat v ++ '>' :: showNat m) else Pure.pure v
        | _ => errToken "unsigned integer" : PM Nat) s := fun _ => rfl
    rw [e]
    cases s.tok with
    | u64 v =>
      by_cases hv : v > u64Max
      · simp only [if_pos hv]; exact .inr (.inl ⟨_, _, rfl, rfl⟩)
      · simp only [if_neg hv]; exact .inl ⟨_, _, _, rfl, rfl, rfl, by omega⟩
    | _ => exact .inr (.inl ⟨_, _, rfl, rfl⟩)
  · rintro a _ ⟨rfl, hv⟩
    refine Par.step fun _ => Par.pure ⟨a, ?_, rfl⟩
    have : castInt .usize a = a := by
      simp only [u64Max] at hv
      simp only [castInt, toTwos, ofTwos, IntKind.signed, IntKind.bytes]
      simp
      omega
    rw [this]

theorem usize_iff {f g : Nat → Out PErr PSt Val} {x y : Out PErr PSt Val} (hf : ∀ n, f (n + 1) = x) (hg : ∀ n, g (n + 1) = y)
    (h : (∃ a b s', x = .ok a s' ∧ y = .ok b s' ∧ ∃ i : Nat, b = .int i ∧ a = .int (i % 2 ^ 32 : Nat)) ∨
      (∃ e s', x = .err e s' ∧ y = .err e s') ∨ (x = .panic ∧ y = .panic) ∨ (x = .oof ∧ y = .oof)) (w : Val) :
    Decodes f w ↔ ∃ i : Nat, Decodes g (.int i) ∧ w = .int (i % 2 ^ 32 : Nat) := by
  have hD : ∀ {f : Nat → Out PErr PSt Val} {x}, (∀ n, f (n + 1) = x) → ∀ w, Decodes f w ↔ ∃ s, x = .ok w s := by
    intro f x hf w
    constructor
    · rintro ⟨n, hn⟩
      obtain ⟨s, hs⟩ := hn (n + 1) (by omega)
      exact ⟨s, (hf n).symm.trans hs⟩
    · rintro ⟨s, hs⟩
      refine ⟨1, fun n hn => ⟨s, ?_⟩⟩
      obtain ⟨m, rfl⟩ : ∃ m, n = m + 1 := ⟨n - 1, by omega⟩
      exact (hf m).trans hs
  simp only [hD hf, hD hg]
  rcases h with ⟨a, b, s', h1, h2, i, rfl, rfl⟩ | ⟨e, s', h1, h2⟩ | ⟨h1, h2⟩ | ⟨h1, h2⟩ <;> simp only [h1, h2]
  · constructor
    · rintro ⟨s, hs⟩
      injection hs with hs
      exact ⟨i, ⟨s', rfl⟩, hs.symm⟩
    · rintro ⟨j, ⟨s, hs⟩, rfl⟩
      injection hs with hs
      injection hs with hs
      obtain rfl : i = j := by omega
      exact ⟨s', rfl⟩
  all_goals simp

/-- **C100** (JSON): a `usize` on a 32-bit target is the number that a 64-bit target reads, without its high half: no error is
reported. -/
theorem C100_json32_usize_truncated (txt : List Char) (w : Val) :
    Decodes (fun n => W32.deserializeJson env fl n (.int .usize) txt) w ↔
      ∃ i : Nat, Decodes (fun n => deserializeJson env fl n (.int .usize) txt) (.int i) ∧ w = .int (i % 2 ^ 32 : Nat) :=
  usize_iff (fun _ => rfl) (fun _ => rfl) ((Par.step fun _ => deInt_usize _ : Par _ (jNext fl >>= fun _ => W32.deInt (jNext fl) .usize)
    (jNext fl >>= fun _ => NS.deInt (jNext fl) .usize)) (initSt jcol txt)) w

/-- **C100** (RON). -/
theorem C100_ron32_usize_truncated (txt : List Char) (w : Val) :
    Decodes (fun n => W32.deserializeRon env fl n (.int .usize) txt) w ↔
      ∃ i : Nat, Decodes (fun n => deserializeRon env fl n (.int .usize) txt) (.int i) ∧ w = .int (i % 2 ^ 32 : Nat) :=
  usize_iff (fun _ => rfl) (fun _ => rfl) ((Par.step fun _ => deInt_usize _ : Par _ (rNext fl >>= fun _ => W32.deInt (rNext fl) .usize)
    (rNext fl >>= fun _ => NS.deInt (rNext fl) .usize)) (initSt rcol txt)) w


/-! ## Examples -/

/-- `struct S { n: usize, xs: Vec<usize> }`. -/
noncomputable def exUsz : Env := lawEnv [.struct [{ name := ['n'], ty := .int .usize }, { name := ['x', 's'], ty := .vec (.int .usize) }] false false] []
/-- `S { n: 4000000000, xs: vec![1, 4294967295] }`. -/
def exUszVal : Val := .struct [.int 4000000000, .seq [.int 1, .int 4294967295]]

theorem exUsz_defs : exUsz.narrow.defs =
    [.struct [{ name := ['n'], ty := .int .u32 }, { name := ['x', 's'], ty := .vec (.int .u32) }] false false] := rfl

theorem exUsz_json : JsonEnvOk exUsz := by
  intro i d h
  rw [show exUsz.defs = [.struct [{ name := ['n'], ty := .int .usize }, { name := ['x', 's'], ty := .vec (.int .usize) }] false false] from rfl] at h
  match i with
  | 0 =>
    simp at h; subst h
    constructor
    · intro f hf _; simp at hf; rcases hf with rfl | rfl <;> (unfold PlainName; decide)
    · simp [Field.jsonName, chars]
    · simp
    · simp [Field.absent]
  | n + 1 => simp at h

example (hfl : FloatLaws fl) : Decodes (fun n => W32.deserializeJson exUsz fl n (.named 0) (serJson exUsz fl (.named 0) exUszVal)) exUszVal ∧
    Decodes (fun n => deserializeJson exUsz fl n (.named 0) (serJson exUsz fl (.named 0) exUszVal)) exUszVal := by
  refine C100_json_round_trip (env := exUsz) (t := .named 0) (v := exUszVal) (lawEnv_lawful _ _) hfl exUsz_json (chk := false) ?_ ?_ ?_ rfl
  · simp [SkipEq, exUszVal, exUsz_defs, SkipEqFields, Ty.narrow, SkipEqAll]
  · simp [HasTy, exUszVal, exUsz_defs, FieldsTy, Ty.narrow, AllTy, IntKind.inRange, IntKind.lo, IntKind.hi, IntKind.signed,
      IntKind.bytes, u64Max]
    show 2 * 8 ≤ isizeMax
    decide
  · simp [JsonExact, Holds, exUszVal, exUsz_defs, HoldsFields, HoldsAll, Ty.narrow, JsonNodeOk, IntKind.textual, Field.absent]

/-- `4294967297` is one more than a 32-bit `usize` can hold: it reads as 1. -/
example : Decodes (fun n => W32.deserializeJson exUsz toyFloat n (.int .usize) (chars "4294967297")) (.int 1) :=
  (C100_json32_usize_truncated _ _).2 ⟨4294967297, json_ok 2 _ (by decide +kernel), rfl⟩

example : Decodes (fun n => W32.deserializeRon exUsz toyFloat n (.int .usize) (chars "4294967297")) (.int 1) :=
  (C100_ron32_usize_truncated _ _).2 ⟨4294967297, ron_ok 2 _ (by decide +kernel), rfl⟩

/-- A vector of small numbers, written `u32` or `usize`. -/
example : Decodes (fun n => W32.deserializeRon exUsz toyFloat n (.vec (.int .usize)) (chars "[1, 4294967295]")) (.seq [.int 1, .int 4294967295]) :=
  (C100_ron_small_usize (env := exUsz) (t := .vec (.int .usize)) (ron_ok 9 _ (by decide +kernel))).1

end NS
