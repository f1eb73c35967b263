import Verif.Spec.Bin
import Verif.Spec.Prog
/-! The types that occur in a program are finitely many. -/
namespace NS

theorem Def.types_eq_tys (d : Def) : d.types = d.tys := by cases d <;> rfl

/-- The types a type is made of, one step down. -/
def Ty.parts (env : Env) : Ty → List Ty
  | .option t | .vec t | .linked t | .hset t | .bset t | .array t _ | .box t => [t]
  | .pair a b | .hmap a b | .bmap a b => [a, b]
  | .triple a b c => [a, b, c]
  | .quad a b c d => [a, b, c, d]
  | .named i => match env.defs[i]? with
    | some d => d.tys
    | none => []
  | .proxied i => match env.proxies[i]? with
    | some p => [p.ty]
    | none => []
  | _ => []

/-- A rank that falls along types without text of their own. -/
def Ranked (env : Env) (rank : Ty → Nat) : Prop :=
  (∀ t, rank t < rank (.option t)) ∧ (∀ t, rank t < rank (.box t)) ∧
    (∀ (i : Nat) t, env.defs[i]? = some (.tuple [t] true) → rank t < rank (.named i)) ∧
    (∀ (i : Nat) px, env.proxies[i]? = some px → rank px.ty < rank (.proxied i))

/-- A set of types that contains the parts of its members. -/
def PartsIn (env : Env) (S : Ty → Prop) : Prop := ∀ u, S u → ∀ c ∈ u.parts env, S c

/-- A type and everything written in it. -/
def Ty.subs : Ty → List Ty
  | .option t => .option t :: t.subs
  | .vec t => .vec t :: t.subs
  | .linked t => .linked t :: t.subs
  | .hset t => .hset t :: t.subs
  | .bset t => .bset t :: t.subs
  | .array t n => .array t n :: t.subs
  | .box t => .box t :: t.subs
  | .pair a b => .pair a b :: (a.subs ++ b.subs)
  | .hmap a b => .hmap a b :: (a.subs ++ b.subs)
  | .bmap a b => .bmap a b :: (a.subs ++ b.subs)
  | .triple a b c => .triple a b c :: (a.subs ++ (b.subs ++ c.subs))
  | .quad a b c d => .quad a b c d :: (a.subs ++ (b.subs ++ (c.subs ++ d.subs)))
  | t => [t]

theorem Ty.self_subs (t : Ty) : t ∈ t.subs := by cases t <;> simp [Ty.subs]

/-- All types of a program with `t`. -/
def progTys (env : Env) (t : Ty) : List Ty :=
  t.subs ++ (env.defs.flatMap (fun d => d.tys.flatMap Ty.subs) ++ env.proxies.flatMap fun p => p.ty.subs)

theorem subs_parts {env : Env} (t u : Ty) (h : u ∈ t.subs) : ∀ c ∈ u.parts env, c ∈ t.subs ∨
    (∃ d ∈ env.defs, c ∈ d.tys) ∨ ∃ p ∈ env.proxies, c = p.ty := by
  have leaf : ∀ i : Nat, (∀ c ∈ (Ty.named i).parts env, ∃ d ∈ env.defs, c ∈ d.tys) ∧
      ∀ c ∈ (Ty.proxied i).parts env, ∃ p ∈ env.proxies, c = p.ty := by
    intro i
    constructor
    · intro c hc
      simp only [Ty.parts] at hc
      cases hd : env.defs[i]? with
      | none => rw [hd] at hc; simp at hc
      | some d => rw [hd] at hc; exact ⟨d, List.mem_of_getElem? hd, hc⟩
    · intro c hc
      simp only [Ty.parts] at hc
      cases hd : env.proxies[i]? with
      | none => rw [hd] at hc; simp at hc
      | some d => rw [hd] at hc; simp at hc; exact ⟨d, List.mem_of_getElem? hd, hc⟩
  intro c hc
  induction t with
  | named i =>
    simp only [Ty.subs, List.mem_singleton] at h
    subst h
    exact .inr (.inl ((leaf i).1 c hc))
  | proxied i =>
    simp only [Ty.subs, List.mem_singleton] at h
    subst h
    exact .inr (.inr ((leaf i).2 c hc))
  | option t ih | vec t ih | linked t ih | hset t ih | bset t ih | array t _ ih | box t ih =>
    simp only [Ty.subs, List.mem_cons] at h ⊢
    rcases h with rfl | h
    · simp only [Ty.parts, List.mem_singleton] at hc
      subst hc
      exact .inl (.inr (Ty.self_subs _))
    · exact (ih h).imp .inr id
  | pair a b iha ihb | hmap a b iha ihb | bmap a b iha ihb =>
    simp only [Ty.subs, List.mem_cons, List.mem_append] at h ⊢
    rcases h with rfl | h | h
    · simp only [Ty.parts, List.mem_cons, List.not_mem_nil, or_false] at hc
      rcases hc with rfl | rfl
      · exact .inl (.inr (.inl (Ty.self_subs _)))
      · exact .inl (.inr (.inr (Ty.self_subs _)))
    · exact (iha h).imp (fun g => .inr (.inl g)) id
    · exact (ihb h).imp (fun g => .inr (.inr g)) id
  | triple a b c1 iha ihb ihc =>
    simp only [Ty.subs, List.mem_cons, List.mem_append] at h ⊢
    rcases h with rfl | h | h | h
    · simp only [Ty.parts, List.mem_cons, List.not_mem_nil, or_false] at hc
      rcases hc with rfl | rfl | rfl
      · exact .inl (.inr (.inl (Ty.self_subs _)))
      · exact .inl (.inr (.inr (.inl (Ty.self_subs _))))
      · exact .inl (.inr (.inr (.inr (Ty.self_subs _))))
    · exact (iha h).imp (fun g => .inr (.inl g)) id
    · exact (ihb h).imp (fun g => .inr (.inr (.inl g))) id
    · exact (ihc h).imp (fun g => .inr (.inr (.inr g))) id
  | quad a b c1 d iha ihb ihc ihd =>
    simp only [Ty.subs, List.mem_cons, List.mem_append] at h ⊢
    rcases h with rfl | h | h | h | h
    · simp only [Ty.parts, List.mem_cons, List.not_mem_nil, or_false] at hc
      rcases hc with rfl | rfl | rfl | rfl
      · exact .inl (.inr (.inl (Ty.self_subs _)))
      · exact .inl (.inr (.inr (.inl (Ty.self_subs _))))
      · exact .inl (.inr (.inr (.inr (.inl (Ty.self_subs _)))))
      · exact .inl (.inr (.inr (.inr (.inr (Ty.self_subs _)))))
    · exact (iha h).imp (fun g => .inr (.inl g)) id
    · exact (ihb h).imp (fun g => .inr (.inr (.inl g))) id
    · exact (ihc h).imp (fun g => .inr (.inr (.inr (.inl g)))) id
    · exact (ihd h).imp (fun g => .inr (.inr (.inr (.inr g)))) id
  | _ =>
    simp only [Ty.subs, List.mem_singleton] at h
    subst h
    simp [Ty.parts] at hc

theorem progTys_closed (env : Env) (t : Ty) : PartsIn env (· ∈ progTys env t) := by
  intro u hu c hc
  have key : ∀ t' : Ty, u ∈ t'.subs → (∀ x ∈ t'.subs, x ∈ progTys env t) → c ∈ progTys env t := by
    intro t' h1 h2
    rcases subs_parts t' u h1 c hc with h | ⟨d, h3, h4⟩ | ⟨p, h3, rfl⟩
    · exact h2 c h
    · simp only [progTys, List.mem_append, List.mem_flatMap]
      exact .inr (.inl ⟨d, h3, c, h4, Ty.self_subs c⟩)
    · simp only [progTys, List.mem_append, List.mem_flatMap]
      exact .inr (.inr ⟨p, h3, Ty.self_subs _⟩)
  have hu' := hu
  simp only [progTys, List.mem_append, List.mem_flatMap] at hu'
  rcases hu' with h | ⟨d, h1, x, h2, h3⟩ | ⟨p, h1, h2⟩
  · exact key t h fun x hx => by simp only [progTys, List.mem_append]; exact .inl hx
  · exact key x h3 fun y hy => by
      simp only [progTys, List.mem_append, List.mem_flatMap]
      exact .inr (.inl ⟨d, h1, x, h2, hy⟩)
  · exact key p.ty h2 fun y hy => by
      simp only [progTys, List.mem_append, List.mem_flatMap]
      exact .inr (.inr ⟨p, h1, hy⟩)

theorem progTys_self (env : Env) (t : Ty) : t ∈ progTys env t := by
  simp only [progTys, List.mem_append]
  exact .inl (Ty.self_subs t)

theorem bounded_on (rank : Ty → Nat) (l : List Ty) : ∃ K, ∀ u ∈ l, rank u ≤ K := by
  induction l with
  | nil => exact ⟨0, by simp⟩
  | cons t l ih =>
    obtain ⟨K, h⟩ := ih
    exact ⟨max (rank t) K, List.forall_mem_cons.2 ⟨Nat.le_max_left _ _, fun u hu => Nat.le_trans (h u hu) (Nat.le_max_right _ _)⟩⟩

end NS
