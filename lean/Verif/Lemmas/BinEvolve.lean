import Verif.Spec.BinEvolve
import Verif.Lemmas.Bin
/-! Corresponding values have the same bytes (for C81). -/
namespace NS
variable {env env' : Env} {R : Ty → Ty → Prop}

/-! ## Bytes part by part -/

/-- The bytes of the parts. -/
def serParts (env : Env) : List Part → List Val → List Byte
  | (t, none) :: ps, v :: vs => serBin env t v ++ serParts env ps vs
  | (_, some _) :: ps, _ :: vs => serParts env ps vs
  | _, _ => []

theorem serParts_tys (ts : List Ty) (vs : List Val) : serParts env (ts.map plain) vs = serBinTys env ts vs := by
  induction ts generalizing vs with
  | nil => cases vs <;> rfl
  | cons t ts ih =>
    cases vs with
    | nil => rfl
    | cons v vs => simp [serParts, plain, serBinTys, ← ih vs]

theorem serParts_fields (fs : List Field) (vs : List Val) : serParts env (fs.map Field.part) vs = serBinFields env true fs vs := by
  induction fs generalizing vs with
  | nil => cases vs <;> rfl
  | cons f fs ih =>
    cases vs with
    | nil => cases hf : f.skip <;> simp [serParts, Field.part, hf, serBinFields]
    | cons v vs =>
      cases hf : f.skip <;> simp [serParts, Field.part, hf, serBinFields, ← ih vs]

theorem serParts_varFields (fs : List Field) (vs : List Val) :
    serParts env ((fs.map (·.ty)).map plain) vs = serBinFields env false fs vs := by
  induction fs generalizing vs with
  | nil => cases vs <;> rfl
  | cons f fs ih =>
    cases vs with
    | nil => rfl
    | cons v vs =>
      have := ih vs
      simp only [List.map_map] at this
      simp [serParts, plain, serBinFields, this]

theorem serParts_array (t : Ty) (vs : List Val) : serParts env (List.replicate vs.length (plain t)) vs = serBinAll env t vs := by
  induction vs with
  | nil => rfl
  | cons v vs ih => simp [List.replicate_succ, serParts, plain, serBinAll, ← ih]

theorem serBin_parts {t : Ty} {ps : List Part} (h : env.parts t = some ps) (vs : List Val) (hl : vs.length = ps.length) :
    serBin env t (fromParts t vs) = serParts env ps vs := by
  cases t <;> simp only [Env.parts, Option.some.injEq, reduceCtorEq] at h
  · subst h; cases vs with
    | nil => simp [fromParts, serBin, serParts]
    | cons => simp at hl
  · subst h
    simp only [List.length_replicate] at hl
    subst hl
    simp only [fromParts, serBin]
    exact (serParts_array _ _).symm
  · subst h; simp only [fromParts, serBin]; exact (serParts_tys _ _).symm
  · subst h; simp only [fromParts, serBin]; exact (serParts_tys _ _).symm
  · subst h; simp only [fromParts, serBin]; exact (serParts_tys _ _).symm
  · rename_i i
    cases hd : env.defs[i]? with
    | none => rw [hd] at h; cases h
    | some d =>
      rw [hd] at h
      cases d with
      | struct fs cd nul =>
        injection h with h; subst h
        simp only [fromParts, serBin, hd]; exact (serParts_fields _ _).symm
      | tuple ts tr =>
        injection h with h; subst h
        simp only [fromParts, serBin, hd]; exact (serParts_tys _ _).symm
      | enum vars => cases h

theorem serBin_variant {t : Ty} {cs : List (List Ty)} {n : Nat} {ts : List Ty} (h : env.variants t = some cs) (hn : cs[n]? = some ts)
    (vs : List Val) : serBin env t (.variant n vs) = leBytes 2 n ++ serParts env (ts.map plain) vs := by
  cases t <;> simp only [Env.variants, reduceCtorEq] at h
  rename_i i
  cases hd : env.defs[i]? with
  | none => rw [hd] at h; cases h
  | some d =>
    rw [hd] at h
    cases d with
    | struct fs cd nul => cases h
    | tuple ts tr => cases h
    | enum vars =>
      injection h with h; subst h
      rw [List.getElem?_map] at hn
      cases hv : vars[n]? with
      | none => rw [hv] at hn; cases hn
      | some var =>
        rw [hv] at hn
        injection hn with hn; subst hn
        obtain ⟨nm, rn, sh⟩ := var
        simp only [serBin, hd, hv]
        cases sh with
        | unit => simp [Shape.parts, serParts]
        | tuple ts => simp only [Shape.parts, serParts_tys]
        | named fs => simp only [Shape.parts, serParts_varFields]

/-! ## The same bytes -/

theorem PartsMigrate.lengths {M : Ty → Ty → Val → Val → Prop} {ps qs vs ws} (h : PartsMigrate M ps qs vs ws) :
    vs.length = ps.length ∧ ws.length = qs.length := by
  induction h with
  | nil => simp
  | keep _ _ ih => simp [ih]
  | drop _ ih => simp [ih]
  | add _ ih => simp [ih]

theorem PartsMigrate.bytes {M : Ty → Ty → Val → Val → Prop} {ps qs vs ws} (h : PartsMigrate M ps qs vs ws)
    (hM : ∀ a b x y, M a b x y → serBin env a x = serBin env' b y) : serParts env ps vs = serParts env' qs ws := by
  induction h with
  | nil => rfl
  | keep h _ ih => simp only [plain, serParts, hM _ _ _ _ h, ih]
  | drop _ ih => simpa [serParts] using ih
  | add _ ih => simpa [serParts] using ih

theorem serBin_scalar {t : Ty} (h : Scalar t) (v : Val) : serBin env t v = serBin env' t v := by
  cases t <;> simp only [Scalar] at h
  case int k => cases k <;> cases v <;> simp [serBin]
  all_goals (cases v <;> simp [serBin])

theorem serBin_counted {t a : Ty} (h : Counted t a) (vs : List Val) :
    serBin env t (.seq vs) = serUsize vs.length ++ serBinAll env a vs := by
  cases h <;> simp [serBin]

theorem serBin_countedMap {t k a : Ty} (h : CountedMap t k a) (vs : List Val) :
    serBin env t (.seq vs) = serUsize vs.length ++ serBinEntries env k a vs := by
  cases h <;> simp [serBin]

theorem BinMigrates.bytes {t u : Ty} {v w : Val} (h : BinMigrates env env' t u v w) : serBin env t v = serBin env' u w := by
  induction h with
  | same h => exact serBin_scalar h _
  | @word k l i h h0 h1 =>
    have e : serUsize i.toNat = leBytes 8 (toTwos 8 i) := by
      unfold serUsize toTwos
      congr 1
      rw [Int.emod_eq_of_lt h0 (by simpa using h1)]
    rcases h with ⟨rfl, rfl⟩ | ⟨rfl, rfl⟩
    · simp only [serBin]; exact e
    · simp only [serBin]; exact e.symm
  | boxed _ ih => simpa [serBin] using ih
  | unboxed _ ih => simpa [serBin] using ih
  | wrap h _ ih => rw [serBin_parts h _ rfl, ih]; simp [serParts, plain]
  | unwrap h _ ih => rw [serBin_parts h _ rfl, ← ih]; simp [serParts, plain]
  | none => simp [serBin]
  | some _ ih => simpa [serBin] using ih
  | @list t u a b ps ht hu _ ih =>
    rw [serBin_counted ht, serBin_counted hu]
    simp only [List.length_map]
    congr 1
    clear ht hu
    induction ps with
    | nil => rfl
    | cons p ps ihp =>
      simp only [List.map_cons, serBinAll]
      rw [ih p (by simp), ihp (fun q hq => ‹∀ p ∈ _, BinMigrates _ _ _ _ _ _› q (by simp [hq])) fun q hq => ih q (by simp [hq])]
  | @map t u k l a b ps ht hu _ _ ih1 ih2 =>
    rw [serBin_countedMap ht, serBin_countedMap hu]
    simp only [List.length_map]
    congr 1
    have : ∀ ps : List ((Val × Val) × (Val × Val)), (∀ p ∈ ps, serBin env k p.1.1 = serBin env' l p.1.2) →
        (∀ p ∈ ps, serBin env a p.2.1 = serBin env' b p.2.2) →
        serBinEntries env k a (ps.map fun p => .entry p.1.1 p.2.1) = serBinEntries env' l b (ps.map fun p => .entry p.1.2 p.2.2) := by
      intro ps h1 h2
      induction ps with
      | nil => rfl
      | cons p ps ihp =>
        simp only [List.map_cons, serBinEntries]
        rw [h1 p (by simp), h2 p (by simp), ihp (fun q hq => h1 q (by simp [hq])) fun q hq => h2 q (by simp [hq])]
    exact this ps ih1 ih2
  | parts M ht hu hp _ ih =>
    rw [serBin_parts ht _ hp.lengths.1, serBin_parts hu _ hp.lengths.2]
    exact hp.bytes fun a b x y h => ih a b x y h
  | variant M ht hu hc hd hp _ ih =>
    rw [serBin_variant ht hc, serBin_variant hu hd]
    congr 1
    exact hp.bytes fun a b x y h => ih a b x y h
  | proxied h h' _ ih => simp [serBin, h, h', ih]

/-! ## Instants not before the epoch -/

/-- The condition on the parts of a value. -/
def ExactParts (env : Env) : List Part → List Val → Prop
  | (t, none) :: ps, v :: vs => BinExact env t v ∧ ExactParts env ps vs
  | (_, some d) :: ps, v :: vs => v = d ∧ ExactParts env ps vs
  | _, _ => True

/-- The condition on a single value. -/
abbrev NotPast (_ : Ty) (w : Val) : Prop := ∀ s n, w = .time s n → 0 ≤ s

theorem exactParts_tys (ts : List Ty) (vs : List Val) :
    ExactParts env (ts.map plain) vs ↔ HoldsTys env NotPast (fun f => f.tyDefault) false ts vs := by
  induction ts generalizing vs with
  | nil => cases vs <;> simp [ExactParts, HoldsTys]
  | cons t ts ih =>
    cases vs with
    | nil => simp [ExactParts, plain, HoldsTys]
    | cons v vs => simp only [List.map_cons, ExactParts, plain, HoldsTys, ← ih vs]; rfl

theorem exactParts_fields (fs : List Field) (vs : List Val) :
    ExactParts env (fs.map Field.part) vs ↔ HoldsFields env NotPast (fun f => f.tyDefault) false true fs vs := by
  induction fs generalizing vs with
  | nil => cases vs <;> simp [ExactParts, HoldsFields]
  | cons f fs ih =>
    cases vs with
    | nil => cases hf : f.skip <;> simp [ExactParts, Field.part, hf, HoldsFields]
    | cons v vs =>
      cases hf : f.skip <;> simp only [List.map_cons, ExactParts, Field.part, hf, HoldsFields, ← ih vs, if_true, if_false,
        Bool.false_eq_true, and_false, and_true, true_and, and_self] <;> rfl

theorem exactParts_varFields (fs : List Field) (vs : List Val) :
    ExactParts env ((fs.map (·.ty)).map plain) vs ↔ HoldsFields env NotPast (fun f => f.tyDefault) false false fs vs := by
  induction fs generalizing vs with
  | nil => cases vs <;> simp [ExactParts, HoldsFields]
  | cons f fs ih =>
    cases vs with
    | nil => simp [ExactParts, plain, HoldsFields]
    | cons v vs =>
      simp only [List.map_cons, ExactParts, plain, HoldsFields, ← ih vs, Bool.false_eq_true, false_and, if_false]; rfl

theorem exactParts_array (t : Ty) (vs : List Val) :
    ExactParts env (List.replicate vs.length (plain t)) vs ↔ HoldsAll env NotPast (fun f => f.tyDefault) false t vs := by
  induction vs with
  | nil => simp [ExactParts, HoldsAll]
  | cons v vs ih => simp only [List.length_cons, List.replicate_succ, ExactParts, plain, HoldsAll, ← ih]; rfl

theorem exact_parts {t : Ty} {ps : List Part} (h : env.parts t = some ps) (vs : List Val) (hl : vs.length = ps.length) :
    BinExact env t (fromParts t vs) ↔ ExactParts env ps vs := by
  cases t <;> simp only [Env.parts, Option.some.injEq, reduceCtorEq] at h
  · subst h
    obtain rfl : vs = [] := List.length_eq_zero_iff.1 hl
    simp [fromParts, BinExact, Holds, ExactParts]
  · subst h
    simp only [List.length_replicate] at hl
    subst hl
    simp [fromParts, BinExact, Holds, exactParts_array]
  · subst h
    rename_i a b
    rw [show [plain a, plain b] = [a, b].map plain from rfl, exactParts_tys]
    simp [fromParts, BinExact, Holds]
  · subst h
    rename_i a b c
    rw [show [plain a, plain b, plain c] = [a, b, c].map plain from rfl, exactParts_tys]
    simp [fromParts, BinExact, Holds]
  · subst h
    rename_i a b c d
    rw [show [plain a, plain b, plain c, plain d] = [a, b, c, d].map plain from rfl, exactParts_tys]
    simp [fromParts, BinExact, Holds]
  · rename_i i
    cases hd : env.defs[i]? with
    | none => rw [hd] at h; cases h
    | some d =>
      rw [hd] at h
      cases d with
      | struct fs cd nul =>
        injection h with h; subst h
        rw [exactParts_fields]
        simp [fromParts, BinExact, Holds, hd]
      | tuple ts tr =>
        injection h with h; subst h
        rw [exactParts_tys]
        simp [fromParts, BinExact, Holds, hd]
      | enum vars => cases h

theorem exact_variant {t : Ty} {cs : List (List Ty)} {n : Nat} {ts : List Ty} (h : env.variants t = some cs) (hn : cs[n]? = some ts)
    (vs : List Val) : BinExact env t (.variant n vs) ↔ ExactParts env (ts.map plain) vs := by
  cases t <;> simp only [Env.variants, reduceCtorEq] at h
  rename_i i
  cases hd : env.defs[i]? with
  | none => rw [hd] at h; cases h
  | some d =>
    rw [hd] at h
    cases d with
    | struct fs cd nul => cases h
    | tuple ts tr => cases h
    | enum vars =>
      injection h with h; subst h
      rw [List.getElem?_map] at hn
      cases hv : vars[n]? with
      | none => rw [hv] at hn; cases hn
      | some var =>
        rw [hv] at hn
        injection hn with hn; subst hn
        obtain ⟨nm, rn, sh⟩ := var
        cases sh with
        | unit => simp [Shape.parts, ExactParts, BinExact, Holds, hd, hv]
        | tuple ts => simp only [Shape.parts, exactParts_tys]; simp [BinExact, Holds, hd, hv]
        | named fs => simp only [Shape.parts, exactParts_varFields]; simp [BinExact, Holds, hd, hv]

theorem PartsMigrate.exact {M : Ty → Ty → Val → Val → Prop} {ps qs vs ws} (h : PartsMigrate M ps qs vs ws)
    (hM : ∀ a b x y, M a b x y → BinExact env a x → BinExact env' b y) : ExactParts env ps vs → ExactParts env' qs ws := by
  induction h with
  | nil => exact id
  | keep h _ ih => exact fun e => ⟨hM _ _ _ _ h e.1, ih e.2⟩
  | drop _ ih => exact fun e => ih e.2
  | add _ ih => exact fun e => ⟨rfl, ih e⟩

theorem exact_counted {t a : Ty} (h : Counted t a) (vs : List Val) :
    BinExact env t (.seq vs) ↔ ∀ v ∈ vs, BinExact env a v := by
  have : BinExact env t (.seq vs) ↔ HoldsAll env NotPast (fun f => f.tyDefault) false a vs := by
    cases h <;> simp [BinExact, Holds]
  rw [this]
  clear this
  induction vs with
  | nil => simp [HoldsAll]
  | cons v vs ih => simp only [HoldsAll, ih, List.mem_cons, forall_eq_or_imp]; rfl

theorem exact_countedMap {t k a : Ty} (h : CountedMap t k a) {α : Type} (f g : α → Val) (ps : List α) :
    BinExact env t (.seq (ps.map fun p => .entry (f p) (g p))) ↔ ∀ p ∈ ps, BinExact env k (f p) ∧ BinExact env a (g p) := by
  have : BinExact env t (.seq (ps.map fun p => .entry (f p) (g p))) ↔
      HoldsEntries env NotPast (fun f => f.tyDefault) false k a (ps.map fun p => .entry (f p) (g p)) := by
    cases h <;> simp [BinExact, Holds]
  rw [this]
  clear this
  induction ps with
  | nil => simp [HoldsEntries]
  | cons v vs ih => simp only [List.map_cons, HoldsEntries, ih, List.mem_cons, forall_eq_or_imp, and_assoc]; rfl

theorem BinMigrates.exact {t u : Ty} {v w : Val} (h : BinMigrates env env' t u v w) : BinExact env t v → BinExact env' u w := by
  induction h with
  | @same t v h =>
    cases t <;> simp only [Scalar] at h <;> cases v <;> simp [BinExact, Holds]
  | word => simp [BinExact, Holds]
  | boxed _ ih => intro e; exact ⟨by simp, ih e⟩
  | unboxed _ ih => intro e; exact ih e.2
  | wrap h _ ih => intro e; exact (exact_parts h _ rfl).2 ⟨ih e, trivial⟩
  | unwrap h _ ih => intro e; exact ih ((exact_parts h _ rfl).1 e).1
  | none => simp [BinExact, Holds]
  | some _ ih => intro e; exact ⟨by simp, ih e.2⟩
  | list ps ht hu _ ih =>
    intro e
    rw [exact_counted hu]
    rw [exact_counted ht] at e
    intro w hw
    obtain ⟨p, hp, rfl⟩ := List.mem_map.1 hw
    exact ih p hp (e _ (List.mem_map.2 ⟨p, hp, rfl⟩))
  | map ps ht hu _ _ ih1 ih2 =>
    intro e
    have e := (exact_countedMap ht (fun p => p.1.1) (fun p => p.2.1) ps).1 e
    exact (exact_countedMap hu (fun p => p.1.2) (fun p => p.2.2) ps).2 fun p hp => ⟨ih1 p hp (e p hp).1, ih2 p hp (e p hp).2⟩
  | parts M ht hu hp _ ih =>
    rw [exact_parts ht _ hp.lengths.1, exact_parts hu _ hp.lengths.2]
    exact hp.exact fun a b x y h => ih a b x y h
  | variant M ht hu hc hd hp _ ih =>
    rw [exact_variant ht hc, exact_variant hu hd]
    exact hp.exact fun a b x y h => ih a b x y h
  | proxied h h' _ ih =>
    intro e
    simp only [BinExact, Holds, h] at e
    simp only [BinExact, Holds, h']
    exact ⟨by simp, ih e.2⟩

/-! ## Every value has a corresponding value -/

/-- The values of the parts. -/
def PartsTy (env : Env) : List Part → List Val → Prop
  | (t, _) :: ps, v :: vs => HasTy env t v ∧ PartsTy env ps vs
  | [], [] => True
  | _, _ => False

theorem partsTy_tys (ts : List Ty) (vs : List Val) : PartsTy env (ts.map plain) vs ↔ TysTy env ts vs := by
  induction ts generalizing vs with
  | nil => cases vs <;> simp [PartsTy, TysTy]
  | cons t ts ih => cases vs <;> simp [PartsTy, plain, TysTy, ← ih]

theorem partsTy_fields (fs : List Field) (vs : List Val) : PartsTy env (fs.map Field.part) vs ↔ FieldsTy env fs vs := by
  induction fs generalizing vs with
  | nil => cases vs <;> simp [PartsTy, FieldsTy]
  | cons f fs ih => cases vs <;> simp [PartsTy, Field.part, FieldsTy, ← ih]

theorem partsTy_varFields (fs : List Field) (vs : List Val) :
    PartsTy env ((fs.map (·.ty)).map plain) vs ↔ FieldsTy env fs vs := by
  rw [partsTy_tys]
  induction fs generalizing vs with
  | nil => cases vs <;> simp [TysTy, FieldsTy]
  | cons f fs ih => cases vs <;> simp [TysTy, FieldsTy, ← ih]

theorem partsTy_array (t : Ty) (vs : List Val) : PartsTy env (List.replicate vs.length (plain t)) vs ↔ AllTy env t vs := by
  induction vs with
  | nil => simp [PartsTy, AllTy]
  | cons v vs ih => simp [List.replicate_succ, PartsTy, plain, AllTy, ← ih]

theorem hasTy_parts {t : Ty} {ps : List Part} (h : env.parts t = some ps) {v : Val} (hT : HasTy env t v) :
    ∃ vs, v = fromParts t vs ∧ PartsTy env ps vs ∧ (vs ≠ [] → ∀ x ∈ vs, sizeOf x < sizeOf v) := by
  have key : ∀ vs : List Val, (∀ x ∈ vs, sizeOf x < sizeOf (Val.seq vs)) ∧ ∀ x ∈ vs, sizeOf x < sizeOf (Val.struct vs) := by
    intro vs
    constructor <;> intro x hx <;> have := List.sizeOf_lt_of_mem hx <;> simp <;> omega
  cases t <;> simp only [Env.parts, Option.some.injEq, reduceCtorEq] at h
  · subst h
    cases v <;> simp only [HasTy] at hT
    exact ⟨[], rfl, trivial, by simp⟩
  · subst h
    cases v <;> simp only [HasTy] at hT
    rename_i vs
    obtain ⟨h1, h2⟩ := hT
    subst h2
    exact ⟨vs, rfl, (partsTy_array _ _).2 h1, fun _ => (key vs).1⟩
  · subst h
    cases v <;> simp only [HasTy] at hT
    exact ⟨_, rfl, (partsTy_tys [_, _] _).2 hT, fun _ => (key _).1⟩
  · subst h
    cases v <;> simp only [HasTy] at hT
    exact ⟨_, rfl, (partsTy_tys [_, _, _] _).2 hT, fun _ => (key _).1⟩
  · subst h
    cases v <;> simp only [HasTy] at hT
    exact ⟨_, rfl, (partsTy_tys [_, _, _, _] _).2 hT, fun _ => (key _).1⟩
  · rename_i i
    cases hd : env.defs[i]? with
    | none => rw [hd] at h; cases h
    | some d =>
      rw [hd] at h
      cases d with
      | struct fs cd nul =>
        injection h with h; subst h
        cases v <;> simp only [HasTy, hd] at hT
        exact ⟨_, rfl, (partsTy_fields _ _).2 hT, fun _ => (key _).2⟩
      | tuple ts tr =>
        injection h with h; subst h
        cases v <;> simp only [HasTy, hd] at hT
        exact ⟨_, rfl, (partsTy_tys _ _).2 hT, fun _ => (key _).2⟩
      | enum vars => cases h

theorem hasTy_variant_ev {t : Ty} {cs : List (List Ty)} (h : env.variants t = some cs) {v : Val} (hT : HasTy env t v) :
    ∃ n ts vs, v = .variant n vs ∧ cs[n]? = some ts ∧ PartsTy env (ts.map plain) vs ∧ ∀ x ∈ vs, sizeOf x < sizeOf v := by
  have key : ∀ (n : Nat) (vs : List Val), ∀ x ∈ vs, sizeOf x < sizeOf (Val.variant n vs) := by
    intro n vs x hx
    have := List.sizeOf_lt_of_mem hx
    simp; omega
  cases t <;> simp only [Env.variants, reduceCtorEq] at h
  rename_i i
  cases hd : env.defs[i]? with
  | none => rw [hd] at h; cases h
  | some d =>
    rw [hd] at h
    cases d with
    | struct fs cd nul => cases h
    | tuple ts tr => cases h
    | enum vars =>
      injection h with h; subst h
      cases v <;> simp only [HasTy, hd] at hT
      rename_i n vs
      cases hv : vars[n]? with
      | none => rw [hv] at hT; exact absurd hT id
      | some var =>
        rw [hv] at hT
        obtain ⟨nm, rn, sh⟩ := var
        refine ⟨n, sh.parts, vs, rfl, by rw [List.getElem?_map, hv]; rfl, ?_, key n vs⟩
        cases sh with
        | unit => simp only at hT; subst hT; trivial
        | tuple ts => exact (partsTy_tys _ _).2 hT
        | named fs => exact (partsTy_varFields _ _).2 hT

theorem partsMigrate_exists {T : Ty → Ty → Prop} {M : Ty → Ty → Val → Val → Prop} {ps qs : List Part} (h : PartsEvo T ps qs)
    {vs : List Val} (hT : PartsTy env ps vs) (hM : ∀ a b, T a b → ∀ x ∈ vs, HasTy env a x → ∃ y, M a b x y) :
    ∃ ws, PartsMigrate M ps qs vs ws := by
  induction h generalizing vs with
  | nil =>
    cases vs with
    | nil => exact ⟨[], .nil⟩
    | cons => exact absurd hT id
  | keep h _ ih =>
    cases vs with
    | nil => exact absurd hT id
    | cons v vs =>
      obtain ⟨w, hw⟩ := hM _ _ h v (by simp) hT.1
      obtain ⟨ws, hws⟩ := ih hT.2 fun a b h x hx => hM a b h x (by simp [hx])
      exact ⟨w :: ws, .keep hw hws⟩
  | drop _ ih =>
    cases vs with
    | nil => exact absurd hT id
    | cons v vs =>
      obtain ⟨ws, hws⟩ := ih hT.2 fun a b h x hx => hM a b h x (by simp [hx])
      exact ⟨ws, .drop hws⟩
  | @add u d _ _ _ ih =>
    obtain ⟨ws, hws⟩ := ih hT hM
    exact ⟨d :: ws, .add hws⟩

theorem hasTy_counted {t a : Ty} (h : Counted t a) {v : Val} (hT : HasTy env t v) : ∃ vs, v = .seq vs ∧ ∀ x ∈ vs, HasTy env a x := by
  have key : ∀ vs, AllTy env a vs → ∀ x ∈ vs, HasTy env a x := by
    intro vs hv
    induction vs with
    | nil => simp
    | cons v vs ih => exact List.forall_mem_cons.2 ⟨hv.1, ih hv.2⟩
  cases h <;> cases v <;> simp only [HasTy] at hT <;> exact ⟨_, rfl, key _ hT.1⟩

theorem hasTy_countedMap {t k a : Ty} (h : CountedMap t k a) {v : Val} (hT : HasTy env t v) :
    ∃ es : List (Val × Val), v = .seq (es.map fun e => .entry e.1 e.2) ∧ ∀ e ∈ es, HasTy env k e.1 ∧ HasTy env a e.2 := by
  have key : ∀ vs, EntriesTy env k a vs → ∃ es : List (Val × Val), vs = (es.map fun e => .entry e.1 e.2) ∧
      ∀ e ∈ es, HasTy env k e.1 ∧ HasTy env a e.2 := by
    intro vs hv
    induction vs with
    | nil => exact ⟨[], rfl, by simp⟩
    | cons v vs ih =>
      cases v <;> simp only [EntriesTy] at hv
      obtain ⟨es, rfl, h⟩ := ih hv.2.2
      exact ⟨(_, _) :: es, rfl, List.forall_mem_cons.2 ⟨⟨hv.1, hv.2.1⟩, h⟩⟩
  cases h <;> cases v <;> simp only [HasTy] at hT
  all_goals
    obtain ⟨es, rfl, h⟩ := key _ hT.1
    exact ⟨es, rfl, h⟩

theorem binMigrates_exists (hEv : BinEvolution env env' R) : ∀ (n : Nat) (t u : Ty), BinTyEvo env env' R t u → ∀ v, sizeOf v ≤ n →
    HasTy env t v → ∃ w, BinMigrates env env' t u v w := by
  intro n
  induction n using Nat.strongRecOn with
  | ind n ih =>
  intro t u hu
  induction hu with
  | same h => exact fun v _ _ => ⟨v, .same h⟩
  | @version t u hR =>
    intro v hn hT
    rcases hEv t u hR with ⟨ps, qs, h1, h2, h3⟩ | ⟨cs, ds, h1, h2, h3⟩
    · obtain ⟨vs, rfl, hp, hlt⟩ := hasTy_parts h1 hT
      obtain ⟨ws, hw⟩ := partsMigrate_exists (M := BinMigrates env env') h3 hp fun a b hab x hx hx' =>
        ih (sizeOf x) (by have := hlt (List.ne_nil_of_mem hx) x hx; omega) a b hab x (Nat.le_refl _) hx'
      exact ⟨_, .parts _ h1 h2 hw fun _ _ _ _ h => h⟩
    · obtain ⟨m, ts, vs, rfl, hm, hp, hlt⟩ := hasTy_variant_ev h1 hT
      obtain ⟨us, hus, h3⟩ := h3 m ts hm
      obtain ⟨ws, hw⟩ := partsMigrate_exists (M := BinMigrates env env') h3 hp fun a b hab x hx hx' =>
        ih (sizeOf x) (by have := hlt x hx; omega) a b hab x (Nat.le_refl _) hx'
      exact ⟨_, .variant _ h1 h2 hm hus hw fun _ _ _ _ h => h⟩
  | usizeU64 =>
    intro v _ hT
    cases v <;> simp only [HasTy] at hT
    simp only [IntKind.inRange, IntKind.lo, IntKind.hi, IntKind.signed, IntKind.bytes] at hT
    exact ⟨_, .word (.inl ⟨rfl, rfl⟩) (by simpa using hT.1) (by have := hT.2; simp at this; omega)⟩
  | u64Usize =>
    intro v _ hT
    cases v <;> simp only [HasTy] at hT
    simp only [IntKind.inRange, IntKind.lo, IntKind.hi, IntKind.signed, IntKind.bytes] at hT
    exact ⟨_, .word (.inr ⟨rfl, rfl⟩) (by simpa using hT.1) (by have := hT.2; simp at this; omega)⟩
  | boxed _ ihu =>
    intro v hn hT
    obtain ⟨w, hw⟩ := ihu v hn hT
    exact ⟨_, .boxed hw⟩
  | unboxed _ ihu =>
    intro v hn hT
    cases v <;> simp only [HasTy] at hT
    obtain ⟨w, hw⟩ := ihu _ (by simp at hn; omega) hT
    exact ⟨_, .unboxed hw⟩
  | wrap h _ ihu =>
    intro v hn hT
    obtain ⟨w, hw⟩ := ihu v hn hT
    exact ⟨_, .wrap h hw⟩
  | unwrap h _ ihu =>
    intro v hn hT
    obtain ⟨vs, rfl, hp, hlt⟩ := hasTy_parts h hT
    match vs, hp, hlt with
    | [x], hp, hlt =>
      obtain ⟨w, hw⟩ := ihu x (by have := hlt (by simp) x (by simp); omega) hp.1
      exact ⟨_, .unwrap h hw⟩
    | [], hp, _ => exact absurd hp id
    | _ :: _ :: _, hp, _ => exact absurd hp.2 id
  | option _ ihu =>
    intro v hn hT
    cases v <;> simp only [HasTy] at hT
    · exact ⟨_, .none⟩
    · obtain ⟨w, hw⟩ := ihu _ (by simp at hn; omega) hT
      exact ⟨_, .some hw⟩
  | @list t u a b ht hu _ ihu =>
    intro v hn hT
    obtain ⟨vs, rfl, hv⟩ := hasTy_counted ht hT
    have : ∀ vs : List Val, (∀ x ∈ vs, sizeOf x ≤ n ∧ HasTy env a x) → ∃ ps : List (Val × Val), ps.map (·.1) = vs ∧
        ∀ p ∈ ps, BinMigrates env env' a b p.1 p.2 := by
      intro vs h
      induction vs with
      | nil => exact ⟨[], rfl, by simp⟩
      | cons x vs ihv =>
        obtain ⟨ps, e, hp⟩ := ihv fun y hy => h y (by simp [hy])
        obtain ⟨w, hw⟩ := ihu x (h x (by simp)).1 (h x (by simp)).2
        exact ⟨(x, w) :: ps, by simp [e], List.forall_mem_cons.2 ⟨hw, hp⟩⟩
    obtain ⟨ps, rfl, hp⟩ := this vs fun x hx => ⟨by have := List.sizeOf_lt_of_mem hx; simp at hn; omega, hv x hx⟩
    exact ⟨_, .list ps ht hu hp⟩
  | @map t u k l a b ht hu _ _ ihk ihu =>
    intro v hn hT
    obtain ⟨es, rfl, hv⟩ := hasTy_countedMap ht hT
    have : ∀ es : List (Val × Val), (∀ e ∈ es, (sizeOf e.1 ≤ n ∧ sizeOf e.2 ≤ n) ∧ HasTy env k e.1 ∧ HasTy env a e.2) →
        ∃ ps : List ((Val × Val) × (Val × Val)), ps.map (fun p => (p.1.1, p.2.1)) = es ∧
        (∀ p ∈ ps, BinMigrates env env' k l p.1.1 p.1.2) ∧ ∀ p ∈ ps, BinMigrates env env' a b p.2.1 p.2.2 := by
      intro es h
      induction es with
      | nil => exact ⟨[], rfl, by simp, by simp⟩
      | cons x es ihv =>
        obtain ⟨ps, e, hp, hp'⟩ := ihv fun y hy => h y (by simp [hy])
        have hx := h x (by simp)
        obtain ⟨w, hw⟩ := ihk x.1 hx.1.1 hx.2.1
        obtain ⟨w', hw'⟩ := ihu x.2 hx.1.2 hx.2.2
        exact ⟨((x.1, w), (x.2, w')) :: ps, by simp [e], List.forall_mem_cons.2 ⟨hw, hp⟩, List.forall_mem_cons.2 ⟨hw', hp'⟩⟩
    obtain ⟨ps, rfl, hp, hp'⟩ := this es fun e he => ⟨by
      have := List.sizeOf_lt_of_mem (List.mem_map.2 ⟨e, he, rfl⟩ : Val.entry e.1 e.2 ∈ es.map fun e => Val.entry e.1 e.2)
      simp at hn this
      omega, hv e he⟩
    refine ⟨.seq (ps.map fun p => .entry p.1.2 p.2.2), ?_⟩
    have := BinMigrates.map (env := env) (env' := env') ps ht hu hp hp'
    simpa [List.map_map, Function.comp_def] using this
  | proxied h h' _ ihu =>
    intro v hn hT
    cases v <;> simp only [HasTy, h] at hT
    obtain ⟨w, hw⟩ := ihu _ (by simp at hn; omega) hT.1
    exact ⟨_, .proxied h h' hw⟩

end NS
