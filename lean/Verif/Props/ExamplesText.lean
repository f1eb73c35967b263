import Verif.Props.Examples
import Verif.Spec.JsonSafe
import Verif.Spec.Prog
import Verif.Lemmas.JsonText
/-!
Concrete programs, values and float operations for the text formats.

```rust
#[derive(SerJson, DeJson)] struct Node { id: u16, #[nserde(skip)] note: String, next: Option<Box<Node>> }
#[derive(SerJson, DeJson)] enum E { A, B(i8, String), C { n: Node, t: SystemTime } }
#[derive(SerJson, DeJson)] #[nserde(transparent)] struct Meters(u32);
#[derive(SerJson, DeJson)] struct Conf {
    #[nserde(rename = "n")] name: String,
    #[nserde(default = "3")] retries: u8,
    level: Option<Meters>,
    #[nserde(skip)] cache: u64,
    ratio: f64,
}
#[derive(SerJson, DeJson)] struct Empty {}
```
-/
namespace NS

/-! ## Float operations that satisfy the assumptions -/

/-- A toy float type: a finite `x` is written as the decimal of its bit pattern followed by `.0`. -/
def toyFloat : FloatOps where
  parse64 s :=
    if s.getLast? = some 'e' ∨ s.getLast? = some 'E' ∨ s.getLast? = some '-' then none
    else some (BitVec.ofNat 64 (digitsVal (s.takeWhile isDig)))
  show64 x := if finite64 x then showNat x.toNat ++ ['.', '0'] else ['N', 'a', 'N']
  show32 x := if finite32 x then showNat x.toNat ++ ['.', '0'] else ['N', 'a', 'N']
  to32 y := BitVec.ofNat 32 y.toNat
  ofU64 n := BitVec.ofNat 64 n
  ofI64 i := BitVec.ofInt 64 i

theorem showNat_head (n : Nat) : showNat n = ['0'] ∨ (showNat n).head? ≠ some '0' := by
  rcases Nat.eq_zero_or_pos n with rfl | h
  · exact .inl rfl
  right
  intro hh
  have : ∀ (m : Nat), 0 < m → ∀ t, Nat.toDigits 10 m ≠ '0' :: t := by
    intro m
    induction m using Nat.strongRecOn with
    | _ m ih =>
      intro hm t e
      by_cases h10 : m < 10
      · rw [Nat.toDigits_of_lt_base h10] at e
        injection e with e _
        have : ∀ k : Fin 10, 0 < k.val → k.val.digitChar ≠ '0' := by decide
        exact this ⟨m, h10⟩ hm e
      · rw [Nat.toDigits_of_base_le (by omega) (by omega)] at e
        cases hd : Nat.toDigits 10 (m / 10) with
        | nil => exact absurd hd (showNat_ne_nil _)
        | cons x r =>
          rw [hd] at e
          injection e with e _
          subst e
          exact ih (m / 10) (by omega) (by omega) r hd
  unfold showNat at hh
  cases hd : Nat.toDigits 10 n with
  | nil => exact absurd hd (showNat_ne_nil _)
  | cons x r =>
    rw [hd] at hh
    simp at hh
    subst hh
    exact this n h r hd

theorem toy_lit (n : Nat) : FloatLit (showNat n ++ ['.', '0']) :=
  ⟨[], showNat n, ['.', '0'], [], by simp, .inl rfl, showNat_ne_nil n, digits_showNat n,
    .inr ⟨['0'], rfl, by simp, by intro c hc; simp at hc; subst hc; decide⟩, .inl rfl, .inl (by simp),
    showNat_head n⟩

theorem toy_parse (n : Nat) : toyFloat.parse64 (showNat n ++ ['.', '0']) = some (BitVec.ofNat 64 n) := by
  have h1 : (showNat n ++ ['.', '0']).takeWhile isDig = showNat n := by
    exact (takeWhile_append_stop (fun x hx => showNat_dig hx) (StopAt.cons (by decide))).1
  have h2 : (showNat n ++ ['.', '0']).getLast? = some '0' := by simp [List.getLast?_append]
  simp only [toyFloat, h1, h2, digitsVal_showNat]
  rfl

theorem toyFloat_laws : FloatLaws toyFloat where
  lit64 x h := by
    simp only [toyFloat, if_pos h]
    exact toy_lit _
  parse_show64 x h := by
    have : toyFloat.show64 x = showNat x.toNat ++ ['.', '0'] := if_pos h
    rw [this, toy_parse, BitVec.ofNat_toNat]
    simp
  lit32 x h := by
    simp only [toyFloat, if_pos h]
    exact toy_lit _
  parse_show32 x h := by
    have : toyFloat.show32 x = showNat x.toNat ++ ['.', '0'] := if_pos h
    rw [this, toy_parse]
    refine ⟨_, rfl, ?_⟩
    apply BitVec.eq_of_toNat_eq
    have := x.isLt
    simp only [toyFloat, BitVec.toNat_ofNat]
    omega
  nonfinite64 x h := by simp [toyFloat, if_neg h]
  nonfinite32 x h := by simp [toyFloat, if_neg h]
  parse_total s h := by
    obtain ⟨sg, ip, fr, ex, rfl, h1, h2, h3, h4⟩ := h
    have key : ∀ c, (sg ++ ip ++ fr ++ ex).getLast? = some c → Rfc.Digit c := by
      intro c hc
      have last : ∀ (a b : List Char), b ≠ [] → (a ++ b).getLast? = some c → b.getLast? = some c := by
        intro a b hb h
        rw [List.getLast?_append] at h
        cases e : b.getLast? with
        | none => simp at e; exact absurd e hb
        | some d => rw [e] at h; simpa using h
      have mem : ∀ b : List Char, b.getLast? = some c → c ∈ b := fun b h => List.mem_of_getLast? h
      have hip : ∀ c ∈ ip, Rfc.Digit c := by
        rcases h2 with rfl | ⟨d, ds, rfl, hd, _, hds⟩
        · intro c hc; simp at hc; subst hc; unfold Rfc.Digit; decide
        · intro c hc; rcases List.mem_cons.1 hc with rfl | hc
          · exact hd
          · exact hds c hc
      have hipne : ip ≠ [] := by rcases h2 with rfl | ⟨d, ds, rfl, _⟩ <;> simp
      rcases h4 with rfl | ⟨e, m, x, rfl, _, _, hx, hxd⟩
      · rcases h3 with rfl | ⟨f, rfl, hf, hfd⟩
        · simp only [List.append_nil] at hc
          exact hip c (mem _ (last _ _ hipne hc))
        · simp only [List.append_nil] at hc
          rw [show sg ++ ip ++ '.' :: f = (sg ++ ip ++ ['.']) ++ f by simp] at hc
          exact hfd c (mem _ (last _ _ hf hc))
      · rw [show sg ++ ip ++ fr ++ e :: (m ++ x) = (sg ++ ip ++ fr ++ [e] ++ m) ++ x by simp] at hc
        exact hxd c (mem _ (last _ _ hx hc))
    have h5 : ¬ ((sg ++ ip ++ fr ++ ex).getLast? = some 'e' ∨ (sg ++ ip ++ fr ++ ex).getLast? = some 'E' ∨
        (sg ++ ip ++ fr ++ ex).getLast? = some '-') := by
      rintro (h | h | h)
      · have := key _ h; exact absurd this (by unfold Rfc.Digit; decide)
      · have := key _ h; exact absurd this (by unfold Rfc.Digit; decide)
      · have := key _ h; exact absurd this (by unfold Rfc.Digit; decide)
    simp only [toyFloat, if_neg h5]
    rfl
  parse_bare_exp t e m he hm := by
    rcases he with rfl | rfl <;> rcases hm with rfl | rfl <;> simp [toyFloat, List.getLast?_cons]

/-! ## A program -/

/-- `Meters` (definition 2). -/
def exMeters : Def := .tuple [.int .u32] true

/-- `Conf` (definition 3). -/
def exConf : Def := .struct
  [ { name := chars "name", ty := .str, rename := some (chars "n"), tyDefault := .str [] },
    { name := chars "retries", ty := .int .u8, dfltAttr := some (.int 3), tyDefault := .int 0 },
    { name := chars "level", ty := .option (.named 2), optSyn := true, tyDefault := .none },
    { name := chars "cache", ty := .int .u64, skip := true, tyDefault := .int 0 },
    { name := chars "ratio", ty := .f64, tyDefault := .f64 0 } ]
  false false

/-- `Empty` (definition 4). -/
def exEmpty : Def := .struct [] false false

/-- The program. -/
noncomputable def exJEnv : Env :=
  lawEnv [exNode, exEnum, exMeters, exConf, exEmpty]
    [{ ty := .int .u8, into := fun v => match v with | .struct [x] => x | x => x,
       back := fun v => .struct [v] }]

theorem exJEnv_lawful : LawfulKeys exJEnv := lawEnv_lawful _ _
@[simp] theorem exJEnv_defs : exJEnv.defs = [exNode, exEnum, exMeters, exConf, exEmpty] := rfl
@[simp] theorem exJEnv_memSize (t) : exJEnv.memSize t = 8 := rfl
@[simp] theorem exJEnv_cap (a b) : exJEnv.hashCapPanics a b = false := rfl

theorem exJEnv_wf : ProgWf exJEnv := by
  constructor
  · intro d hd t ht
    simp only [exJEnv_defs, List.mem_cons, List.not_mem_nil, or_false] at hd
    rcases hd with rfl | rfl | rfl | rfl | rfl
    · simp [Def.tys, exNode] at ht
      rcases ht with rfl | rfl | rfl <;> simp [TyWf, IntKind.textual]
    · simp [Def.tys, exEnum] at ht
      rcases ht with rfl | rfl | rfl | rfl <;> simp [TyWf, IntKind.textual]
    · simp [Def.tys, exMeters] at ht
      subst ht; simp [TyWf, IntKind.textual]
    · simp [Def.tys, exConf] at ht
      rcases ht with rfl | rfl | rfl | rfl | rfl <;> simp [TyWf, IntKind.textual]
    · simp [Def.tys, exEmpty] at ht
  · intro p hp
    simp [exJEnv, lawEnv] at hp
    subst hp
    simp [TyWf, IntKind.textual]

/-- Nesting of `Option` and `Box`; `Meters` is above `u32`, the proxied type above `u8`. -/
def exRank : Ty → Nat
  | .option t => exRank t + 1
  | .box t => exRank t + 1
  | .named _ => 1
  | .proxied _ => 1
  | _ => 0

theorem exJEnv_productive : Productive exJEnv := by
  refine ⟨exRank, fun t => Nat.lt_succ_self _, fun t => Nat.lt_succ_self _, ?_, ?_⟩
  · intro i t h
    simp only [exJEnv_defs] at h
    match i with
    | 0 => simp [exNode] at h
    | 1 => simp [exEnum] at h
    | 2 => simp [exMeters] at h; subst h; decide
    | 3 => simp [exConf] at h
    | 4 => simp [exEmpty] at h
    | n + 5 => simp at h
  · intro i px h
    match i with
    | 0 => simp [exJEnv, lawEnv] at h; subst h; decide
    | n + 1 => simp [exJEnv, lawEnv] at h

/-- `Conf { name: "a\"b", retries: 7, level: Some(Meters(12)), cache: 0, ratio: <bits 5> }`. -/
def exConfVal : Val :=
  .struct [.str ['a', '"', 'b'], .int 7, .some (.struct [.int 12]), .int 0, .f64 5]

end NS
