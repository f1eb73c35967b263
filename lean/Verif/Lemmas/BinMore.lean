import Verif.Lemmas.BinRoundTrip
import Verif.Lemmas.BinTyped
/-! Further lemmas for the binary properties. -/
set_option linter.unusedSimpArgs false
set_option linter.unusedVariables false
namespace NS
variable {env : Env} {chk : Bool} {d : List Byte}

/-- Skipped fields do not influence the encoding. -/
theorem serBin_upToSkip (v : Val) : ∀ t w, EqUpToSkip env t v w → serBin env t v = serBin env t w := by
  induction v using Val.sizeInd with
  | h v ih =>
  have all : ∀ (t : Ty) (vs ws : List Val), sizeOf vs < sizeOf v → EqUpToSkipAll env t vs ws →
      vs.length = ws.length ∧ serBinAll env t vs = serBinAll env t ws := by
    intro t vs
    induction vs with
    | nil => intro ws _ h; cases ws <;> simp [EqUpToSkipAll] at h ⊢
    | cons x xs ihx =>
      intro ws hsz h
      cases ws with
      | nil => simp [EqUpToSkipAll] at h
      | cons y ys =>
        simp only [EqUpToSkipAll] at h
        simp only [List.cons.sizeOf_spec] at hsz
        have h1 := ih x (by omega) t y h.1
        have h2 := ihx ys (by omega) h.2
        simp [serBinAll, h1, h2.1, h2.2]
  have entries : ∀ (k t : Ty) (vs ws : List Val), sizeOf vs < sizeOf v →
      EqUpToSkipEntries env k t vs ws →
      vs.length = ws.length ∧ serBinEntries env k t vs = serBinEntries env k t ws := by
    intro k t vs
    induction vs with
    | nil => intro ws _ h; cases ws <;> simp [EqUpToSkipEntries] at h ⊢
    | cons x xs ihx =>
      intro ws hsz h
      cases ws with
      | nil => cases x <;> simp [EqUpToSkipEntries] at h
      | cons y ys =>
        cases x <;> cases y <;> simp only [EqUpToSkipEntries] at h
        simp only [List.cons.sizeOf_spec, Val.entry.sizeOf_spec] at hsz
        have h1 := ih _ (by omega) k _ h.1
        have h2 := ih _ (by omega) t _ h.2.1
        have h3 := ihx ys (by omega) h.2.2
        simp [serBinEntries, h1, h2, h3.1, h3.2]
  have tys : ∀ (ts : List Ty) (vs ws : List Val), sizeOf vs < sizeOf v →
      EqUpToSkipTys env ts vs ws → serBinTys env ts vs = serBinTys env ts ws := by
    intro ts
    induction ts with
    | nil => intro vs ws _ h; cases vs <;> cases ws <;> simp [EqUpToSkipTys, serBinTys] at h ⊢
    | cons t ts iht =>
      intro vs ws hsz h
      cases vs <;> cases ws <;> simp only [EqUpToSkipTys] at h
      simp only [List.cons.sizeOf_spec] at hsz
      simp only [serBinTys]
      rw [ih _ (by omega) t _ h.1, iht _ _ (by omega) h.2]
  have flds : ∀ (us : Bool) (fs : List Field) (vs ws : List Val), sizeOf vs < sizeOf v →
      EqUpToSkipFields env us fs vs ws → serBinFields env us fs vs = serBinFields env us fs ws := by
    intro us fs
    induction fs with
    | nil => intro vs ws _ h; cases vs <;> cases ws <;> simp [EqUpToSkipFields, serBinFields] at h ⊢
    | cons f fs iht =>
      intro vs ws hsz h
      cases vs <;> cases ws <;> simp only [EqUpToSkipFields] at h
      simp only [List.cons.sizeOf_spec] at hsz
      simp only [serBinFields]
      rw [iht _ _ (by omega) h.2]
      rcases h.1 with hs | hs
      · simp [hs]
      · rw [ih _ (by omega) f.ty _ hs]
  intro t w h
  cases t
  case option t =>
    cases v <;> cases w <;> simp only [EqUpToSkip] at h <;> (try cases h) <;> (try rfl)
    simp only [serBin]; rw [ih _ (by simp) t _ h]
  case vec t =>
    cases v <;> cases w <;> simp only [EqUpToSkip] at h <;> (try cases h) <;> (try rfl)
    have := all t _ _ (by simp) h; simp only [serBin, this.1, this.2]
  case linked t =>
    cases v <;> cases w <;> simp only [EqUpToSkip] at h <;> (try cases h) <;> (try rfl)
    have := all t _ _ (by simp) h; simp only [serBin, this.1, this.2]
  case hset t =>
    cases v <;> cases w <;> simp only [EqUpToSkip] at h <;> (try cases h) <;> (try rfl)
    have := all t _ _ (by simp) h; simp only [serBin, this.1, this.2]
  case bset t =>
    cases v <;> cases w <;> simp only [EqUpToSkip] at h <;> (try cases h) <;> (try rfl)
    have := all t _ _ (by simp) h; simp only [serBin, this.1, this.2]
  case array t n =>
    cases v <;> cases w <;> simp only [EqUpToSkip] at h <;> (try cases h) <;> (try rfl)
    have := all t _ _ (by simp) h; simp only [serBin, this.1, this.2]
  case pair a b =>
    cases v <;> cases w <;> simp only [EqUpToSkip] at h <;> (try cases h) <;> (try rfl)
    have := tys _ _ _ (by simp) h; simp only [serBin, this]
  case triple a b c =>
    cases v <;> cases w <;> simp only [EqUpToSkip] at h <;> (try cases h) <;> (try rfl)
    have := tys _ _ _ (by simp) h; simp only [serBin, this]
  case quad a b c d =>
    cases v <;> cases w <;> simp only [EqUpToSkip] at h <;> (try cases h) <;> (try rfl)
    have := tys _ _ _ (by simp) h; simp only [serBin, this]
  case hmap k t =>
    cases v <;> cases w <;> simp only [EqUpToSkip] at h <;> (try cases h) <;> (try rfl)
    have := entries k t _ _ (by simp) h; simp only [serBin, this.1, this.2]
  case bmap k t =>
    cases v <;> cases w <;> simp only [EqUpToSkip] at h <;> (try cases h) <;> (try rfl)
    have := entries k t _ _ (by simp) h; simp only [serBin, this.1, this.2]
  case box t =>
    cases v <;> cases w <;> simp only [EqUpToSkip] at h <;> (try cases h) <;> (try rfl)
    simp only [serBin]; rw [ih _ (by simp) t _ h]
  case named i =>
    cases v <;> cases w <;> simp only [EqUpToSkip] at h <;> (try (cases h; done)) <;> (try (rw [h]; done)) <;> (try (with_reducible rfl))
    · simp only [serBin]
      cases hd : env.defs[i]? with
      | none => simp
      | some df =>
        simp only [hd] at h
        cases df with
        | struct fs _ _ => exact flds _ _ _ _ (by simp) h
        | tuple ts _ => exact tys _ _ _ (by simp) h
        | enum vars => rfl
    · obtain ⟨rfl, h⟩ := h
      simp only [serBin]
      cases hd : env.defs[i]? with
      | none => simp
      | some df =>
        simp only [hd] at h
        cases df with
        | struct fs _ _ => rfl
        | tuple ts _ => rfl
        | enum vars =>
          rename_i j vs ws
          cases hv : vars[j]? with
          | none => simp [hv]
          | some var =>
            obtain ⟨_, _, sh⟩ := var
            simp only [hv] at h
            cases sh with
            | unit => simp [hv]
            | tuple ts =>
              have := tys _ _ _ (by simp only [Val.variant.sizeOf_spec]; omega) h
              simp [hv, this]
            | named fs =>
              have := flds _ _ _ _ (by simp only [Val.variant.sizeOf_spec]; omega) h
              simp [hv, this]
  case proxied i =>
    cases v <;> cases w <;> simp only [EqUpToSkip] at h <;> (try (cases h; done)) <;> (try (rw [h]; done)) <;> (try (with_reducible rfl))
    simp only [serBin]
    cases hp : env.proxies[i]? with
    | none => simp
    | some px =>
      simp only [hp] at h ⊢
      exact ih _ (by simp; omega) px.ty _ h
  all_goals
    simp only [EqUpToSkip] at h
    rw [h]

/-- A computation that does not panic on any offset inside the input. -/
def NoPanic {α : Type} (x : List Byte → BinM α) : Prop :=
  ∀ d o, d.length ≤ isizeMax → o ≤ d.length → x d o ≠ .panic

theorem NoPanic.pure {α : Type} (a : α) : NoPanic (fun _ => (Pure.pure a : BinM α)) := by
  intro d o _ _; simp

theorem NoPanic.bind {α β : Type} {x : List Byte → BinM α} {f : α → List Byte → BinM β}
    (hl : Local x) (hx : NoPanic x) (hf : ∀ a, NoPanic (f a)) :
    NoPanic (fun d => x d >>= fun a => f a d) := by
  intro d o hd ho h
  simp only [M.bind_def] at h
  cases hxo : x d o with
  | ok a o1 =>
    rw [hxo] at h
    exact hf a d o1 hd ((hl d o a o1 hd hxo).2.1 ho) h
  | err e s => rw [hxo] at h; simp at h
  | panic => exact hx d o hd ho hxo
  | oof => rw [hxo] at h; simp at h

theorem NoPanic.readPrim (len : Nat) (hl : len < 2 ^ 63) : NoPanic (fun d => readPrim chk d len) := by
  intro d o hd ho h
  simp only at h
  by_cases hc : o + len ≤ d.length
  · rw [readPrim_eq hc hd] at h; simp at h
  · rw [readPrim_short (by omega) ho hl hd] at h; simp at h

theorem NoPanic.readUsize : NoPanic (fun d => readUsize chk d) := by
  intro d o hd ho h
  simp only at h
  by_cases hc : o + 8 ≤ d.length
  · rw [readUsize_eq hc hd] at h; simp at h
  · rw [readUsize_short (by omega) ho hd] at h; simp at h

theorem NoPanic.repeatM {α : Type} {x : List Byte → BinM α} (hl : Local x) (hx : NoPanic x) (n : Nat) :
    NoPanic (fun d => repeatM (x d) n) := by
  induction n with
  | zero => exact NoPanic.pure []
  | succ n ih =>
    exact NoPanic.bind hl hx fun a => NoPanic.bind (Local.repeatM hl n) ih fun as => NoPanic.pure _

theorem NoPanic.insertLoop {x : List Byte → BinM Val} (hl : Local x) (hx : NoPanic x) (c : Coll)
    (n : Nat) (acc : List Val) : NoPanic (fun d => insertLoop env c (x d) n acc) := by
  induction n generalizing acc with
  | zero => exact NoPanic.pure acc
  | succ n ih => exact NoPanic.bind hl hx fun a => ih _

theorem NoPanic.deTys {f : List Byte → Ty → BinM Val} (hl : ∀ t, Local (fun d => f d t))
    (ts : List Ty) (hf : ∀ t ∈ ts, NoPanic (fun d => f d t)) :
    NoPanic (fun d => deTys (f d) ts) := by
  induction ts with
  | nil => exact NoPanic.pure []
  | cons t ts ih =>
    exact NoPanic.bind (hl t) (hf t (by simp)) fun a =>
      NoPanic.bind (Local.deTys hl ts) (ih fun u hu => hf u (by simp [hu])) fun as => NoPanic.pure _

theorem NoPanic.deFields {f : List Byte → Ty → BinM Val} (hl : ∀ t, Local (fun d => f d t))
    (us : Bool) (fs : List Field) (hf : ∀ g ∈ fs, NoPanic (fun d => f d g.ty)) :
    NoPanic (fun d => deBinFields (f d) us fs) := by
  induction fs with
  | nil => exact NoPanic.pure []
  | cons t ts ih =>
    have ih := ih fun u hu => hf u (by simp [hu])
    simp only [deBinFields]
    by_cases h : us ∧ t.skip
    · simp only [if_pos h]
      exact NoPanic.bind (Local.pure _) (NoPanic.pure _) fun a =>
        NoPanic.bind (Local.deFields hl us ts) ih fun as => NoPanic.pure _
    · simp only [if_neg h]
      exact NoPanic.bind (hl t.ty) (hf t (by simp)) fun a =>
        NoPanic.bind (Local.deFields hl us ts) ih fun as => NoPanic.pure _

end NS
