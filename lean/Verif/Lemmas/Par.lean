import Verif.Spec.Text32
import Verif.Lemmas.RonSim
/-! Two readers that differ in the values they build and in nothing else: same tokens taken, same errors, same panics. -/
namespace NS

/-- Same outcome, up to the value; the values are related. -/
def Par {ε σ α β : Type} (V : α → β → Prop) (x : M ε σ α) (y : M ε σ β) : Prop :=
  ∀ s, (∃ a b s', x s = .ok a s' ∧ y s = .ok b s' ∧ V a b) ∨ (∃ e s', x s = .err e s' ∧ y s = .err e s') ∨
    (x s = .panic ∧ y s = .panic) ∨ (x s = .oof ∧ y s = .oof)

/-- Any two values. -/
abbrev Any {α β : Type} : α → β → Prop := fun _ _ => True

/-- Fields read so far: the same ones. -/
def SameSet (a b : List (Option Val)) : Prop := a.map Option.isSome = b.map Option.isSome

namespace Par
variable {ε σ α β γ δ : Type} {V : α → β → Prop} {W : γ → δ → Prop}

theorem bare {x : M ε σ α} {y : M ε σ β} (h : Par V x y) (s : σ) : (x s).bare = (y s).bare := by
  rcases h s with ⟨a, b, s', h1, h2, _⟩ | ⟨e, s', h1, h2⟩ | ⟨h1, h2⟩ | ⟨h1, h2⟩ <;> rw [h1, h2] <;> rfl

theorem of_eq {x : M ε σ α} {V : α → α → Prop} (hV : ∀ a, V a a) : Par V x x := by
  intro s
  cases h : x s with
  | ok a s' => exact .inl ⟨a, a, s', rfl, rfl, hV a⟩
  | err e s' => exact .inr (.inl ⟨e, s', rfl, rfl⟩)
  | panic => exact .inr (.inr (.inl ⟨rfl, rfl⟩))
  | oof => exact .inr (.inr (.inr ⟨rfl, rfl⟩))

theorem refl (x : M ε σ α) : Par Eq x x := of_eq fun _ => rfl

theorem pure {a : α} {b : β} (h : V a b) : Par V (Pure.pure a : M ε σ α) (Pure.pure b : M ε σ β) :=
  fun s => .inl ⟨a, b, s, rfl, rfl, h⟩

theorem oof : Par V (M.oof : M ε σ α) (M.oof : M ε σ β) := fun _ => .inr (.inr (.inr ⟨rfl, rfl⟩))

theorem bind {x : M ε σ α} {y : M ε σ β} {f : α → M ε σ γ} {g : β → M ε σ δ} (h : Par V x y)
    (hf : ∀ a b, V a b → Par W (f a) (g b)) : Par W (x >>= f) (y >>= g) := by
  intro s
  rcases h s with ⟨a, b, s', h1, h2, hv⟩ | ⟨e, s', h1, h2⟩ | ⟨h1, h2⟩ | ⟨h1, h2⟩ <;> rw [M.bind_def, M.bind_def, h1, h2]
  · exact hf a b hv s'
  · exact .inr (.inl ⟨e, s', rfl, rfl⟩)
  · exact .inr (.inr (.inl ⟨rfl, rfl⟩))
  · exact .inr (.inr (.inr ⟨rfl, rfl⟩))

/-- A first step that is the same. -/
theorem step {x : M ε σ α} {f : α → M ε σ γ} {g : α → M ε σ δ} (hf : ∀ a, Par W (f a) (g a)) :
    Par W (x >>= f) (x >>= g) := bind (refl x) fun a b h => h ▸ hf a

theorem look {f : σ → M ε σ γ} {g : σ → M ε σ δ} (h : ∀ s, Par W (f s) (g s)) :
    Par W (M.get >>= f) (M.get >>= g) := step h

theorem weaken {V' : α → β → Prop} {x : M ε σ α} {y : M ε σ β} (h : Par V x y) (hV : ∀ a b, V a b → V' a b) : Par V' x y := by
  intro s
  rcases h s with ⟨a, b, s', h1, h2, hv⟩ | h | h | h
  · exact .inl ⟨a, b, s', h1, h2, hV a b hv⟩
  · exact .inr (.inl h)
  · exact .inr (.inr (.inl h))
  · exact .inr (.inr (.inr h))

theorem whileNot {c : Tok} {f : α → PM α} {g : β → PM β} {V : α → β → Prop} (h : ∀ a b, V a b → Par V (f a) (g b)) (n : Nat) (a b) (hv : V a b) :
    Par V (whileNot c f n a) (whileNot c g n b) := by
  induction n generalizing a b with
  | zero => exact oof
  | succ n ih =>
    refine look fun s => ?_
    split
    · exact pure hv
    · exact bind (h a b hv) fun a b hv => ih a b hv

theorem whileIs {c : Tok} {f : α → PM α} {g : β → PM β} {V : α → β → Prop} (h : ∀ a b, V a b → Par V (f a) (g b)) (n : Nat) (a b) (hv : V a b) :
    Par V (whileIs c f n a) (whileIs c g n b) := by
  induction n generalizing a b with
  | zero => exact oof
  | succ n ih =>
    refine look fun s => ?_
    split
    · exact bind (h a b hv) fun a b hv => ih a b hv
    · exact pure hv

theorem deSeq {nx : PM Unit} {x y : PM Val} (h : Par Any x y) (n : Nat) (add add') :
    Par Any (deSeq nx n x add) (deSeq nx n y add') :=
  step fun _ => bind (whileNot (V := Any) (fun _ _ _ => bind h fun _ _ _ => step fun _ => pure trivial) n _ _ trivial) fun _ _ _ =>
    step fun _ => pure trivial

theorem deMap {nx : PM Unit} {x y x' y' : PM Val} (h : Par Any x y) (h' : Par Any x' y') (n : Nat) (add add') :
    Par Any (deMap nx n x x' add) (deMap nx n y y' add') :=
  step fun _ => bind (whileNot (V := Any) (fun _ _ _ => bind h fun _ _ _ => step fun _ => bind h' fun _ _ _ => step fun _ => pure trivial) n _ _ trivial)
    fun _ _ _ => step fun _ => pure trivial

theorem thenEat {x y : PM Val} {e : PM Unit} (h : Par Any x y) : Par Any (thenEat x e) (thenEat y e) :=
  bind h fun _ _ _ => step fun _ => pure trivial

theorem commaAfter {x y : PM Val} {e : PM Unit} (h : Par Any x y) : Par Any (commaAfter x e) (commaAfter y e) := by
  intro s
  unfold NS.commaAfter
  rcases h s with ⟨a, b, s', h1, h2, hv⟩ | ⟨e', s', h1, h2⟩ | ⟨h1, h2⟩ | ⟨h1, h2⟩ <;> rw [h1, h2]
  · exact (step fun _ => pure trivial : Par Any (e >>= fun _ => Pure.pure a) (e >>= fun _ => Pure.pure b)) s'
  · simp only
    cases e s' with
    | ok _ s' => exact .inr (.inl ⟨_, _, rfl, rfl⟩)
    | err _ s' => exact .inr (.inl ⟨_, _, rfl, rfl⟩)
    | panic => exact .inr (.inr (.inl ⟨rfl, rfl⟩))
    | oof => exact .inr (.inr (.inr ⟨rfl, rfl⟩))
  · exact .inr (.inr (.inl ⟨rfl, rfl⟩))
  · exact .inr (.inr (.inr ⟨rfl, rfl⟩))

theorem repeatM {x : M ε σ α} {y : M ε σ β} (h : Par Any x y) (n : Nat) : Par Any (repeatM x n) (repeatM y n) := by
  induction n with
  | zero => exact pure trivial
  | succ n ih => exact bind h fun _ _ _ => bind ih fun _ _ _ => pure trivial

theorem unwrapFields (cd fs) {acc acc' : List (Option Val)} (h : SameSet acc acc') :
    Par Any (unwrapFields cd fs acc) (unwrapFields cd fs acc') := by
  induction fs generalizing acc acc' with
  | nil => exact pure trivial
  | cons f fs ih =>
    cases acc with
    | nil =>
      cases acc' with
      | nil => exact pure trivial
      | cons _ _ => cases h
    | cons o os =>
      cases acc' with
      | nil => cases h
      | cons o' os' =>
        simp only [SameSet, List.map_cons, List.cons.injEq] at h
        rw [NS.unwrapFields, NS.unwrapFields]
        have hc : ∀ a b : Val, Par Any (NS.unwrapFields cd fs os >>= fun as => Pure.pure (a :: as))
            (NS.unwrapFields cd fs os' >>= fun as => Pure.pure (b :: as)) :=
          fun a b => bind (ih h.2) fun _ _ _ => pure (V := Any) trivial
        have hn : ∀ a : Val, Par Any (if (f.skip || f.optSyn || cd || f.dfltAttr.isSome) = true then
              (Pure.pure a : PM Val) >>= fun a => NS.unwrapFields cd fs os >>= fun as => Pure.pure (a :: as)
            else errNf f.name >>= fun a => NS.unwrapFields cd fs os >>= fun as => Pure.pure (a :: as))
            (if (f.skip || f.optSyn || cd || f.dfltAttr.isSome) = true then
              (Pure.pure a : PM Val) >>= fun a => NS.unwrapFields cd fs os' >>= fun as => Pure.pure (a :: as)
            else errNf f.name >>= fun a => NS.unwrapFields cd fs os' >>= fun as => Pure.pure (a :: as)) := by
          intro a
          split
          · exact step fun _ => hc _ _
          · exact step fun _ => hc _ _
        have hn := hn (f.dfltAttr.getD f.tyDefault)
        revert hn
        cases f.skip with
        | true => exact fun hn => hn
        | false =>
          intro hn
          cases o with
          | none =>
            cases o' with
            | none => exact hn
            | some _ => cases h.1
          | some _ =>
            cases o' with
            | none => cases h.1
            | some _ => exact bind (V := Any) (pure trivial) fun _ _ _ => hc _ _

theorem SameSet.set {a b : List (Option Val)} (h : SameSet a b) (i : Nat) (v w : Val) : SameSet (a.set i (some v)) (b.set i (some w)) := by
  unfold SameSet at h ⊢
  rw [List.map_set, List.map_set, h]
  rfl

theorem deTysEat {e : PM Unit} {f g : Ty → PM Val} (h : ∀ t, Par Any (f t) (g t)) (ts) : Par Any (deTysEat f e ts) (deTysEat g e ts) := by
  induction ts with
  | nil => exact pure trivial
  | cons t ts ih => exact bind (thenEat (h t)) fun _ _ _ => bind ih fun _ _ _ => pure trivial

theorem deTysComma {e : PM Unit} {f g : Ty → PM Val} (h : ∀ t, Par Any (f t) (g t)) (ts) : Par Any (deTysComma f e ts) (deTysComma g e ts) := by
  induction ts with
  | nil => exact pure trivial
  | cons t ts ih => exact bind (commaAfter (h t)) fun _ _ _ => bind ih fun _ _ _ => pure trivial

theorem deTuple {o c e : PM Unit} {f g : Ty → PM Val} (h : ∀ t, Par Any (f t) (g t)) (ts) : Par Any (deTuple o c e f ts) (deTuple o c e g ts) :=
  step fun _ => bind (deTysComma h ts) fun _ _ _ => step fun _ => pure trivial

theorem deField {d e : Ty → PM Val} (h : ∀ t, Par Any (d t) (e t)) (f : Field) : Par Any (deField d f) (deField e f) := by
  unfold NS.deField
  split
  · exact bind (h _) fun _ _ _ => pure trivial
  · exact h _

theorem deJsonNamed {nx : PM Unit} (n : Nat) {d e : Ty → PM Val} (cd) (fs : List Field) (h : ∀ t, Par Any (d t) (e t)) :
    Par Any (deJsonNamed nx n d cd fs) (deJsonNamed nx n e cd fs) := by
  refine step fun _ => bind (whileIs (V := SameSet) (fun a b hv => ?_) n _ _ rfl) fun _ _ hv => step fun _ => unwrapFields _ _ hv
  refine look fun s => bind (V := SameSet) ?_ fun _ _ hv => step fun _ => pure hv
  unfold jMemberValue
  split
  · exact pure hv
  · cases findField fs s.strbuf with
    | none => exact step fun _ => step fun _ => pure hv
    | some i => exact step fun _ => bind (deField h _) fun _ _ _ => pure (SameSet.set hv i _ _)

theorem deJsonTupleStruct {nx : PM Unit} {d e : Ty → PM Val} (ts tr) (h : ∀ t, Par Any (d t) (e t)) :
    Par Any (deJsonTupleStruct nx d ts tr) (deJsonTupleStruct nx e ts tr) := by
  unfold NS.deJsonTupleStruct
  split
  · exact of_eq fun _ => trivial
  · exact bind (h _) fun _ _ _ => pure trivial
  · exact step fun _ => bind (h _) fun _ _ _ => step fun _ => pure trivial
  · exact step fun _ => bind (deTysEat h _) fun _ _ _ => step fun _ => pure trivial

theorem deJsonShape {nx : PM Unit} (n : Nat) {d e : Ty → PM Val} (h : ∀ t, Par Any (d t) (e t)) (sh) :
    Par Any (deJsonShape nx n d sh) (deJsonShape nx n e sh) := by
  cases sh with
  | unit => exact pure trivial
  | tuple ts => exact step fun _ => bind (deTysEat h _) fun _ _ _ => step fun _ => pure trivial
  | named fs => exact deJsonNamed n _ _ h

theorem deJsonEnum {nx : PM Unit} (n : Nat) {d e : Ty → PM Val} (h : ∀ t, Par Any (d t) (e t)) (vars) :
    Par Any (deJsonEnum nx n d vars) (deJsonEnum nx n e vars) := by
  refine look fun s => ?_
  split
  · refine step fun _ => step fun _ => step fun _ => look fun s => ?_
    cases findVariant vars false s.strbuf with
    | none => exact of_eq fun _ => trivial
    | some j => exact bind (deJsonShape n h _) fun _ _ _ => step fun _ => pure trivial
  · exact of_eq fun _ => trivial

theorem deRonNamed {nx : PM Unit} (n : Nat) {d e : Ty → PM Val} (cd) (fs : List Field) (h : ∀ t, Par Any (d t) (e t)) :
    Par Any (deRonNamed nx n d cd fs) (deRonNamed nx n e cd fs) := by
  refine step fun _ => bind (whileIs (V := SameSet) (fun a b hv => ?_) n _ _ rfl) fun _ _ hv => step fun _ => unwrapFields _ _ hv
  refine look fun s => bind (V := SameSet) ?_ fun _ _ hv => step fun _ => pure hv
  unfold rMemberValue
  split
  · exact pure hv
  · cases findField fs s.identbuf with
    | none => exact of_eq fun _ => rfl
    | some i => exact step fun _ => bind (h _) fun _ _ _ => pure (SameSet.set hv i _ _)

theorem deRonTys {nx : PM Unit} {d e : Ty → PM Val} (h : ∀ t, Par Any (d t) (e t)) (ts) : Par Any (deRonTys nx d ts) (deRonTys nx e ts) :=
  step fun _ => bind (deTysEat h _) fun _ _ _ => step fun _ => pure trivial

theorem deRonEnum {nx : PM Unit} (n : Nat) {d e : Ty → PM Val} (h : ∀ t, Par Any (d t) (e t)) (vars) :
    Par Any (deRonEnum nx n d vars) (deRonEnum nx n e vars) := by
  refine step fun _ => look fun s => ?_
  cases vars.findIdx? (fun v => v.name == s.identbuf) with
  | none => exact of_eq fun _ => trivial
  | some j =>
    refine bind (V := Any) ?_ fun _ _ _ => pure trivial
    generalize (vars.getD j { name := [], shape := .unit }).shape = sh
    cases sh with
    | unit => exact pure trivial
    | tuple ts => exact deRonTys h ts
    | named fs => exact deRonNamed n _ _ h

theorem deInt {nx : PM Unit} (k) : Par Any (W32.deInt nx k) (NS.deInt nx k) := by
  unfold W32.deInt
  split
  · next h =>
    subst h
    exact step fun _ => step fun _ => pure trivial
  · exact of_eq fun _ => trivial
end Par

theorem W32.deJson_par (env : Env) (fl : FloatOps) (n : Nat) (t : Ty) : Par Any (W32.deJson env fl n t) (NS.deJson env fl n t) := by
  induction n generalizing t with
  | zero => exact Par.oof
  | succ n ih =>
    cases t with
    | unit | bool | f32 | f64 | str | dur | time => exact Par.of_eq fun _ => trivial
    | int k => exact Par.deInt k
    | option t =>
      refine Par.look fun s => ?_
      split
      · exact Par.of_eq fun _ => trivial
      · exact Par.bind (ih t) fun _ _ _ => Par.pure trivial
    | vec t | linked t | hset t | bset t => exact Par.deSeq (ih t) _ _ _
    | array t len =>
      exact Par.step fun _ => Par.bind (Par.repeatM (Par.thenEat (ih t)) _) fun _ _ _ => Par.step fun _ => Par.pure trivial
    | pair | triple | quad => exact Par.deTuple ih _
    | hmap k v | bmap k v => exact Par.deMap (ih k) (ih v) _ _ _
    | box t => exact Par.bind (ih t) fun _ _ _ => Par.pure trivial
    | named i =>
      simp only [W32.deJson, NS.deJson]
      cases env.defs[i]? with
      | none => exact Par.oof
      | some d =>
        cases d with
        | struct fs cd nul => exact Par.bind (Par.deJsonNamed n cd fs ih) fun _ _ _ => Par.pure trivial
        | tuple ts tr => exact Par.deJsonTupleStruct _ _ ih
        | enum vars => exact Par.deJsonEnum n ih _
    | proxied i =>
      simp only [W32.deJson, NS.deJson]
      cases env.proxies[i]? with
      | none => exact Par.oof
      | some px => exact Par.bind (ih _) fun _ _ _ => Par.pure trivial

theorem W32.deRon_par (env : Env) (fl : FloatOps) (n : Nat) (t : Ty) : Par Any (W32.deRon env fl n t) (NS.deRon env fl n t) := by
  induction n generalizing t with
  | zero => exact Par.oof
  | succ n ih =>
    cases t with
    | unit | bool | f32 | f64 | str | dur | time => exact Par.of_eq fun _ => trivial
    | int k => exact Par.deInt k
    | option t =>
      refine Par.look fun s => ?_
      split
      · exact Par.of_eq fun _ => trivial
      · exact Par.bind (ih t) fun _ _ _ => Par.pure trivial
    | vec t | linked t | hset t | bset t => exact Par.deSeq (ih t) _ _ _
    | array t len =>
      exact Par.step fun _ => Par.bind (Par.repeatM (Par.thenEat (ih t)) _) fun _ _ _ => Par.step fun _ => Par.pure trivial
    | pair | triple | quad => exact Par.deTuple ih _
    | hmap k v | bmap k v => exact Par.deMap (ih k) (ih v) _ _ _
    | box t => exact Par.bind (ih t) fun _ _ _ => Par.pure trivial
    | named i =>
      simp only [W32.deRon, NS.deRon]
      cases env.defs[i]? with
      | none => exact Par.oof
      | some d =>
        cases d with
        | struct fs cd nul => exact Par.bind (Par.deRonNamed n cd fs ih) fun _ _ _ => Par.pure trivial
        | tuple ts tr => exact Par.bind (Par.deRonTys ih _) fun _ _ _ => Par.pure trivial
        | enum vars => exact Par.deRonEnum n ih _
    | proxied i => exact Par.oof

end NS
