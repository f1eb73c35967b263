import Verif.Lemmas.JsonTotal
import Verif.Spec.JsonObject
/-! The settled meaning of a JSON value at a type, and its equations. -/
namespace NS
variable {env : Env} {fl : FloatOps}

/-- Eventually. -/
def Ev (P : Nat → Prop) : Prop := ∃ n₀, ∀ n, n₀ ≤ n → P n

theorem Ev.of {P : Nat → Prop} (h : ∀ n, P n) : Ev P := ⟨0, fun n _ => h n⟩
theorem Ev.and {P Q : Nat → Prop} (h : Ev P) (h' : Ev Q) : Ev fun n => P n ∧ Q n := by
  obtain ⟨a, h⟩ := h
  obtain ⟨b, h'⟩ := h'
  exact ⟨max a b, fun n hn => ⟨h n (by omega), h' n (by omega)⟩⟩
theorem Ev.mono {P Q : Nat → Prop} (h : Ev P) (h' : ∀ n, P n → Q n) : Ev Q := by
  obtain ⟨a, h⟩ := h
  exact ⟨a, fun n hn => h' n (h n hn)⟩
theorem Ev.elim {p : Prop} (h : Ev fun _ => p) : p := by
  obtain ⟨a, h⟩ := h
  exact h a (Nat.le_refl _)
theorem Ev.list {α : Type} {P : α → Nat → Prop} (l : List α) (h : ∀ x ∈ l, Ev (P x)) :
    Ev fun n => ∀ x ∈ l, P x n := by
  induction l with
  | nil => exact .of fun n => by simp
  | cons x l ih =>
    have h1 := h x (List.mem_cons_self ..)
    have h2 := ih fun y hy => h y (List.mem_cons_of_mem _ hy)
    refine (h1.and h2).mono fun n hn y hy => ?_
    rcases List.mem_cons.1 hy with rfl | hy
    · exact hn.1
    · exact hn.2 y hy
theorem Ev.shift {P : Nat → Prop} (h : Ev P) : Ev fun n => P (n + 1) := by
  obtain ⟨a, h⟩ := h
  exact ⟨a, fun n hn => h _ (by omega)⟩

open Classical in
/-- The outcome of `decode` for all large bounds. -/
noncomputable def den (env : Env) (fl : FloatOps) (t : Ty) (o : Option JTree) : Dec Val :=
  if h : ∃ r, r ≠ .oof ∧ Ev fun n => decode env fl n t o = r then h.choose else .oof

theorem den_spec (hw : ProgWf env) (hp : Productive env) {t : Ty} (ht : TyWf env t) (o : Option JTree) :
    den env fl t o ≠ .oof ∧ Ev fun n => decode env fl n t o = den env fl t o := by
  obtain ⟨n0, r, hr, h⟩ := decode_stable (fl := fl) hw hp o t ht
  have : ∃ r, r ≠ .oof ∧ Ev fun n => decode env fl n t o = r := ⟨r, hr, n0, h⟩
  unfold den
  rw [dif_pos this]
  exact this.choose_spec

theorem den_eq (hw : ProgWf env) (hp : Productive env) {t : Ty} (ht : TyWf env t) {o : Option JTree} {r : Dec Val}
    (h : Ev fun n => decode env fl (n + 1) t o = r) : den env fl t o = r := by
  have := ((den_spec (fl := fl) hw hp ht o).2.shift).and h
  exact (this.mono fun n hn => (hn.1.symm.trans hn.2)).elim

theorem den_settles (hw : ProgWf env) (hp : Productive env) {t : Ty} (ht : TyWf env t) {J : JTree} {r : Dec Val} :
    Settles env fl t J r ↔ den env fl t (some J) = r := by
  have h0 := den_spec (fl := fl) hw hp ht (some J)
  refine ⟨fun h => ?_, fun h => ⟨?_, ?_⟩⟩
  · exact den_eq hw hp ht (Ev.shift h.2)
  · rw [← h]; exact h0.1
  · rw [← h]; exact h0.2

theorem den_decodes (hw : ProgWf env) (hp : Productive env) {t : Ty} (ht : TyWf env t) {J txt v} (hx : JText fl J txt) :
    Decodes (fun n => deserializeJson env fl n t txt) v ↔ den env fl t (some J) = .ok v := by
  rw [decodes_iff hw hp ht hx, den_settles hw hp ht]

theorem den_rejects (hw : ProgWf env) (hp : Productive env) {t : Ty} (ht : TyWf env t) {J txt} (hx : JText fl J txt) :
    Rejects (fun n => deserializeJson env fl n t txt) ↔ den env fl t (some J) = .err := by
  rw [rejects_iff hw hp ht hx, den_settles hw hp ht]

/-! ## Texts of parts -/

/-- Every lexeme can be spelled. -/
def Spellable (fl : FloatOps) (ls : List Lexeme) : Prop := ∀ l ∈ ls, ∃ s, JSpell fl l s

theorem JDoc.spellable {ls txt tail} (h : JDoc fl ls txt tail) : Spellable fl ls := by
  induction h with
  | nil => intro l hl; cases hl
  | @cons l ls w s r tail hw hs hsep h ih =>
    intro l' hl
    rcases List.mem_cons.1 hl with rfl | hl
    · exact ⟨s, hs⟩
    · exact ih l' hl

theorem JText.spellable {J txt} (h : JText fl J txt) : Spellable fl J.lexemes := by
  obtain ⟨w, _, h⟩ := h
  exact h.spellable

theorem Spellable.doc {ls} (h : Spellable fl ls) : ∃ txt, JDoc fl ls txt [] ∧ ∀ c, txt.head? = some c → c = ' ' := by
  induction ls with
  | nil => exact ⟨[], .nil, by simp⟩
  | cons l ls ih =>
    obtain ⟨r, hr, hh⟩ := ih fun x hx => h x (List.mem_cons_of_mem _ hx)
    obtain ⟨s, hs⟩ := h l (List.mem_cons_self ..)
    refine ⟨[' '] ++ s ++ r, .cons (.space (.inl rfl) .nil) hs ?_ hr, by simp⟩
    unfold JSep
    split
    · intro c hc; rw [hh c hc]; decide
    · intro c hc; rw [hh c hc]; decide
    · trivial

theorem Spellable.text {J : JTree} (h : Spellable fl J.lexemes) : ∃ txt, JText fl J txt := by
  obtain ⟨txt, h, _⟩ := h.doc
  exact ⟨txt, [], .inl .nil, h⟩

theorem commaLexemes_sub {tr : Bool} {xs : List (List Lexeme)} {x} (h : x ∈ xs) : ∀ l ∈ x, l ∈ commaLexemes tr xs := by
  induction xs with
  | nil => cases h
  | cons y ys ih =>
    intro l hl
    cases ys with
    | nil =>
      rcases List.mem_cons.1 h with rfl | h
      · simp [commaLexemes, hl]
      · cases h
    | cons z zs =>
      simp only [commaLexemes, List.mem_append, List.mem_cons]
      rcases List.mem_cons.1 h with rfl | h
      · exact .inl hl
      · exact .inr (.inr (ih h l hl))

theorem Spellable.arr {xs tr x} (h : Spellable fl (JTree.arr xs tr).lexemes) (hx : x ∈ xs) : Spellable fl x.lexemes := by
  intro l hl
  refine h l ?_
  rw [JTree.lexemes_arr]
  simp only [List.mem_cons, List.mem_append]
  exact .inr (.inl (commaLexemes_sub (List.mem_map_of_mem hx) l hl))

theorem Spellable.obj {ms tr} {m : JTree × JTree} (h : Spellable fl (JTree.obj ms tr).lexemes) (hx : m ∈ ms) :
    Spellable fl m.1.lexemes ∧ Spellable fl m.2.lexemes := by
  have : ∀ l ∈ m.1.lexemes ++ .punct .colon :: m.2.lexemes, ∃ s, JSpell fl l s := by
    intro l hl
    refine h l ?_
    rw [JTree.lexemes_obj]
    simp only [List.mem_cons, List.mem_append]
    refine .inr (.inl (commaLexemes_sub (List.mem_map_of_mem hx) l ?_))
    simpa using hl
  exact ⟨fun l hl => this l (by simp [hl]), fun l hl => this l (by simp [hl])⟩

theorem readsAs_iff (hw : ProgWf env) (hp : Productive env) {t : Ty} (ht : TyWf env t) {J v}
    (hx : Spellable fl J.lexemes) : ReadsAs env fl t J v ↔ den env fl t (some J) = .ok v := by
  constructor
  · rintro ⟨txt, h1, h2⟩
    exact (den_decodes hw hp ht h1).1 h2
  · intro h
    obtain ⟨txt, h1⟩ := hx.text
    exact ⟨txt, h1, (den_decodes hw hp ht h1).2 h⟩

/-- `ReadsAs` does not depend on the spelling. -/
theorem ReadsAs.any {t : Ty} {J v} (hw : ProgWf env) (hp : Productive env) (ht : TyWf env t)
    (h : ReadsAs env fl t J v) {txt} (hx : JText fl J txt) : Decodes (fun n => deserializeJson env fl n t txt) v :=
  (den_decodes hw hp ht hx).2 ((readsAs_iff hw hp ht hx.spellable).1 h)

/-! ## Equations -/

theorem foldD_congr {α β : Type} {f g : β → α → Dec β} (xs : List α) (h : ∀ x ∈ xs, ∀ acc, f acc x = g acc x) (acc : β) :
    foldD f acc xs = foldD g acc xs := by
  induction xs generalizing acc with
  | nil => rfl
  | cons x xs ih =>
    simp only [foldD]
    rw [h x (List.mem_cons_self ..)]
    congr 1
    funext a
    exact ih (fun y hy => h y (List.mem_cons_of_mem _ hy)) a

theorem decField_congr {d d' : Ty → Option JTree → Dec Val} {f : Field} {J : JTree}
    (h : d f.ty (some J) = d' f.ty (some J)) (h' : ∀ t, f.ty = .option t → d t (some J) = d' t (some J)) :
    decField d f J = decField d' f J := by
  unfold decField
  split
  · rename_i t _ e; rw [h' t e]
  · exact h

theorem decMember_congr {d d' : Ty → Option JTree → Dec Val} {fs : List Field} {m : JTree × JTree}
    (h : ∀ f ∈ fs, decField d f m.2 = decField d' f m.2) (acc) : decMember d fs acc m = decMember d' fs acc m := by
  unfold decMember
  split
  · split
    · rfl
    · split
      · rfl
      · rename_i i hi
        have hlt := (List.findIdx?_eq_some_iff_getElem.1 hi).1
        rw [h]
        rw [List.getD_eq_getElem?_getD, List.getElem?_eq_getElem hlt]
        exact List.getElem_mem _
  · rfl

theorem TyWf.of_option {t : Ty} (h : TyWf env (.option t)) : TyWf env t := h

theorem den_named_ev (hw : ProgWf env) (hp : Productive env) {cd : Bool} {fs : List Field} (hfs : ∀ f ∈ fs, TyWf env f.ty)
    (J : JTree) : Ev fun n => decNamed (decode env fl n) cd fs (some J) = decNamed (den env fl) cd fs (some J) := by
  match J with
  | .obj ms tr =>
    have : Ev fun n => ∀ m ∈ ms, ∀ f ∈ fs, decField (decode env fl n) f m.2 = decField (den env fl) f m.2 := by
      refine Ev.list ms fun m _ => Ev.list fs fun f hf => ?_
      have h1 := (den_spec (fl := fl) hw hp (hfs f hf) (some m.2)).2
      by_cases ho : ∃ t, f.ty = .option t
      · obtain ⟨t, ho⟩ := ho
        have h2 := (den_spec (fl := fl) hw hp (t := t) (TyWf.of_option (ho ▸ hfs f hf)) (some m.2)).2
        refine (h1.and h2).mono fun n hn => decField_congr hn.1 fun t' e => ?_
        rw [ho] at e; cases e; exact hn.2
      · exact h1.mono fun n hn => decField_congr hn fun t' e => absurd ⟨t', e⟩ ho
    refine this.mono fun n hn => ?_
    simp only [decNamed]
    rw [foldD_congr ms fun m hm acc => decMember_congr (hn m hm) acc]
  | .null => exact .of fun _ => rfl
  | .bool _ => exact .of fun _ => rfl
  | .num _ => exact .of fun _ => rfl
  | .str _ => exact .of fun _ => rfl
  | .arr _ _ => exact .of fun _ => rfl

theorem den_struct (hw : ProgWf env) (hp : Productive env) {i : Nat} {fs cd nul}
    (hd : env.defs[i]? = some (.struct fs cd nul)) (J : JTree) :
    den env fl (.named i) (some J) = (decNamed (den env fl) cd fs (some J)).bind fun vs => .ok (.struct vs) := by
  have hlt : i < env.defs.length := by
    rcases Nat.lt_or_ge i env.defs.length with h | h
    · exact h
    · rw [List.getElem?_eq_none h] at hd; cases hd
  have hfs : ∀ f ∈ fs, TyWf env f.ty := fun f hf => Def.wf_of hw hd f.ty (by simp [Def.tys]; exact ⟨f, hf, rfl⟩)
  refine den_eq (fl := fl) hw hp (t := .named i) (show TyWf env (.named i) from hlt) ((den_named_ev (fl := fl) hw hp (cd := cd) hfs J).mono fun n hn => ?_)
  simp only [decode, hd]
  rw [hn]

theorem decTys_congr {d d' : Ty → Option JTree → Dec Val} (ts : List Ty) (xs : List JTree)
    (h : ∀ t ∈ ts, (∀ x ∈ xs, d t (some x) = d' t (some x)) ∧ d t none = d' t none) : decTys d ts xs = decTys d' ts xs := by
  induction ts generalizing xs with
  | nil => cases xs <;> rfl
  | cons t ts ih =>
    cases xs with
    | nil => simp only [decTys]; rw [(h t (List.mem_cons_self ..)).2]
    | cons x xs =>
      simp only [decTys]
      rw [(h t (List.mem_cons_self ..)).1 x (List.mem_cons_self ..), ih xs fun t' ht' => ⟨fun y hy =>
        (h t' (List.mem_cons_of_mem _ ht')).1 y (List.mem_cons_of_mem _ hy), (h t' (List.mem_cons_of_mem _ ht')).2⟩]

theorem den_tuple_ev (hw : ProgWf env) (hp : Productive env) {ts : List Ty} (hts : ∀ t ∈ ts, TyWf env t)
    (o : Option JTree) : Ev fun n => decTuple (decode env fl n) ts o = decTuple (den env fl) ts o := by
  match o with
  | some (.arr xs tr) =>
    have h1 : Ev fun n => ∀ t ∈ ts, ∀ x ∈ xs, decode env fl n t (some x) = den env fl t (some x) :=
      Ev.list ts fun t ht => Ev.list xs fun x _ => (den_spec hw hp (hts t ht) (some x)).2
    have h2 : Ev fun n => ∀ t ∈ ts, decode env fl n t none = den env fl t none :=
      Ev.list ts fun t ht => (den_spec hw hp (hts t ht) none).2
    refine (h1.and h2).mono fun n hn => ?_
    simp only [decTuple]
    exact decTys_congr ts xs fun t ht => ⟨hn.1 t ht, hn.2 t ht⟩
  | none => exact .of fun _ => rfl
  | some .null => exact .of fun _ => rfl
  | some (.bool _) => exact .of fun _ => rfl
  | some (.num _) => exact .of fun _ => rfl
  | some (.str _) => exact .of fun _ => rfl
  | some (.obj _ _) => exact .of fun _ => rfl

end NS
