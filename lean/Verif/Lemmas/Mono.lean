import Verif.Lemmas.Monad
import Verif.Model.Bin
/-! More fuel never changes a result. -/
namespace NS

/-- `y` agrees with `x` wherever `x` has enough fuel. -/
def Ext {ε σ α : Type} (x y : M ε σ α) : Prop := ∀ s, x s ≠ .oof → y s = x s

namespace Ext
variable {ε σ α β : Type}

theorem refl (x : M ε σ α) : Ext x x := fun _ _ => rfl

theorem oof (y : M ε σ α) : Ext M.oof y := fun _ h => absurd rfl h

theorem trans {x y z : M ε σ α} (h : Ext x y) (h' : Ext y z) : Ext x z := by
  intro s hs
  have e := h s hs
  rw [h' s (by rw [e]; exact hs), e]

theorem bind {x y : M ε σ α} {f g : α → M ε σ β} (h : Ext x y) (hf : ∀ a, Ext (f a) (g a)) :
    Ext (x >>= f) (y >>= g) := by
  intro s hs
  have hx : x s ≠ .oof := by
    intro e; exact hs (M.bind_oof e)
  rw [M.bind_def, M.bind_def, h s hx]
  rw [M.bind_def] at hs
  cases e : x s with
  | ok a s' => rw [e] at hs; exact hf a s' hs
  | err _ _ => rfl
  | panic => rfl
  | oof => rfl

theorem ite {c : Prop} [Decidable c] {x x' y y' : M ε σ α} (h : Ext x x') (h' : Ext y y') :
    Ext (if c then x else y) (if c then x' else y') := by
  by_cases hc : c
  · rw [if_pos hc, if_pos hc]; exact h
  · rw [if_neg hc, if_neg hc]; exact h'

theorem repeatM {x y : M ε σ α} (h : Ext x y) (n : Nat) : Ext (repeatM x n) (repeatM y n) := by
  induction n with
  | zero => exact refl _
  | succ n ih => exact bind h fun a => bind ih fun as => refl _

theorem deTys {f g : Ty → M ε σ Val} (h : ∀ t, Ext (f t) (g t)) (ts : List Ty) :
    Ext (deTys f ts) (deTys g ts) := by
  induction ts with
  | nil => exact refl _
  | cons t ts ih => exact bind (h t) fun a => bind ih fun as => refl _

theorem insertLoop {env : Env} {x y : BinM Val} (h : Ext x y) (c : Coll) (n : Nat) (acc : List Val) :
    Ext (insertLoop env c x n acc) (insertLoop env c y n acc) := by
  induction n generalizing acc with
  | zero => exact refl _
  | succ n ih => exact bind h fun a => ih _

theorem deBinFields {f g : Ty → BinM Val} (h : ∀ t, Ext (f t) (g t)) (us : Bool) (fs : List Field) :
    Ext (deBinFields f us fs) (deBinFields g us fs) := by
  induction fs with
  | nil => exact refl _
  | cons t ts ih =>
    simp only [NS.deBinFields]
    by_cases hc : us ∧ t.skip
    · simp only [if_pos hc]; exact bind (refl _) fun a => bind ih fun as => refl _
    · simp only [if_neg hc]; exact bind (h _) fun a => bind ih fun as => refl _

end Ext

theorem deBin_succ (env : Env) (chk : Bool) (d : List Byte) (n : Nat) (t : Ty) :
    Ext (deBin env chk d n t) (deBin env chk d (n + 1) t) := by
  induction n generalizing t with
  | zero => exact Ext.oof _
  | succ n ih =>
    cases t with
    | unit | bool | f32 | f64 | str | dur | time => exact Ext.refl _
    | int k => cases k <;> exact Ext.refl _
    | option t =>
      exact Ext.bind (Ext.refl _) fun tag => Ext.ite (Ext.bind (ih t) fun _ => Ext.refl _) (Ext.refl _)
    | vec t =>
      exact Ext.bind (Ext.refl _) fun len => Ext.bind (Ext.refl _) fun _ =>
        Ext.bind (Ext.repeatM (ih t) len) fun _ => Ext.refl _
    | linked t =>
      exact Ext.bind (Ext.refl _) fun len => Ext.bind (Ext.repeatM (ih t) len) fun _ => Ext.refl _
    | hset t =>
      exact Ext.bind (Ext.refl _) fun len => Ext.bind (Ext.refl _) fun _ =>
        Ext.bind (Ext.insertLoop (ih t) _ len _) fun _ => Ext.refl _
    | bset t =>
      exact Ext.bind (Ext.refl _) fun len => Ext.bind (Ext.insertLoop (ih t) _ len _) fun _ => Ext.refl _
    | array t len => exact Ext.bind (Ext.repeatM (ih t) len) fun _ => Ext.refl _
    | pair a b => exact Ext.bind (Ext.deTys ih _) fun _ => Ext.refl _
    | triple a b c => exact Ext.bind (Ext.deTys ih _) fun _ => Ext.refl _
    | quad a b c e => exact Ext.bind (Ext.deTys ih _) fun _ => Ext.refl _
    | hmap k v =>
      exact Ext.bind (Ext.refl _) fun len => Ext.bind (Ext.refl _) fun _ =>
        Ext.bind (Ext.insertLoop (Ext.bind (ih k) fun _ => Ext.bind (ih v) fun _ => Ext.refl _) _ len _)
          fun _ => Ext.refl _
    | bmap k v =>
      exact Ext.bind (Ext.refl _) fun len =>
        Ext.bind (Ext.insertLoop (Ext.bind (ih k) fun _ => Ext.bind (ih v) fun _ => Ext.refl _) _ len _)
          fun _ => Ext.refl _
    | box t => exact Ext.bind (ih t) fun _ => Ext.refl _
    | named i =>
      simp only [deBin]
      cases env.defs[i]? with
      | none => exact Ext.refl _
      | some df =>
        cases df with
        | struct fs _ _ => exact Ext.bind (Ext.deBinFields ih true fs) fun _ => Ext.refl _
        | tuple ts _ => exact Ext.bind (Ext.deTys ih ts) fun _ => Ext.refl _
        | enum vars =>
          refine Ext.bind (Ext.refl _) fun id => ?_
          cases vars[leVal id]? with
          | none => exact Ext.refl _
          | some var =>
            refine Ext.bind ?_ fun _ => Ext.refl _
            cases var.shape with
            | unit => exact Ext.refl _
            | tuple ts => exact Ext.deTys ih ts
            | named fs => exact Ext.deBinFields ih false fs
    | proxied i =>
      simp only [deBin]
      cases env.proxies[i]? with
      | none => exact Ext.refl _
      | some px => exact Ext.bind (ih _) fun _ => Ext.refl _

theorem deBin_mono (env : Env) (chk : Bool) (d : List Byte) {n m : Nat} (h : n ≤ m) (t : Ty) :
    Ext (deBin env chk d n t) (deBin env chk d m t) := by
  induction h with
  | refl => exact Ext.refl _
  | step _ ih => exact ih.trans (deBin_succ env chk d _ t)

/-- A single run that stops determines what the function returns. -/
theorem deBin_returns {env : Env} {chk : Bool} {d : List Byte} {n : Nat} {t : Ty} {o : Nat} {r}
    (h : deBin env chk d n t o = r) (hr : r ≠ .oof) : Returns (fun n => deBin env chk d n t o) r :=
  ⟨n, fun m hm => (deBin_mono env chk d hm t o (by rw [h]; exact hr)).trans h⟩

theorem Returns.unique {ε σ α : Type} {f : Nat → Out ε σ α} {r r' : Out ε σ α}
    (h : Returns f r) (h' : Returns f r') : r = r' := by
  obtain ⟨n, h⟩ := h
  obtain ⟨m, h'⟩ := h'
  rw [← h (max n m) (Nat.le_max_left ..), h' (max n m) (Nat.le_max_right ..)]

end NS
