import Verif.Lemmas.Narrow
/-! The writers do not care whether a number is a `usize` or a `u32`. -/
namespace NS

theorem serJsonAll_narrow {t : Ty} {vs : List Val} (h : ∀ w ∈ vs, ∀ t, serJson env.narrow fl t.narrow w = serJson env fl t w) : serJsonAll env.narrow fl t.narrow vs = serJsonAll env fl t vs := by
  induction vs with
  | nil => simp only [serJsonAll]
  | cons v vs ih => simp only [serJsonAll, h v (by simp), ih fun w hw => h w (by simp [hw])]

theorem serJsonEntries_narrow {k t : Ty} {vs : List Val} (h : ∀ a b, Val.entry a b ∈ vs → ∀ t, serJson env.narrow fl t.narrow a = serJson env fl t a ∧ serJson env.narrow fl t.narrow b = serJson env fl t b) :
    serJsonEntries env.narrow fl k.narrow t.narrow vs = serJsonEntries env fl k t vs := by
  induction vs with
  | nil => simp only [serJsonEntries]
  | cons v vs ih =>
    have ih := ih fun a b hm => h a b (by simp [hm])
    cases v with
    | entry a b => simp only [serJsonEntries, (h a b (by simp) k).1, (h a b (by simp) t).2, ih]
    | _ => simp only [serJsonEntries, ih]

theorem serJsonTys_narrow {ts : List Ty} {vs : List Val} (h : ∀ w ∈ vs, ∀ t, serJson env.narrow fl t.narrow w = serJson env fl t w) : serJsonTys env.narrow fl (ts.map Ty.narrow) vs = serJsonTys env fl ts vs := by
  induction ts generalizing vs with
  | nil => cases vs <;> simp only [List.map_nil, serJsonTys]
  | cons t ts ih =>
    cases vs with
    | nil => simp only [List.map_cons, serJsonTys]
    | cons v vs => simp only [List.map_cons, serJsonTys, h v (by simp), ih (vs := vs) fun w hw => h w (by simp [hw])]

theorem serJsonFields_narrow {nul : Bool} {fs : List Field} {vs : List Val} (h : ∀ w ∈ vs, ∀ t, serJson env.narrow fl t.narrow w = serJson env fl t w) : serJsonFields env.narrow fl nul (fs.map Field.narrow) vs = serJsonFields env fl nul fs vs := by
  induction fs generalizing vs with
  | nil => cases vs <;> simp only [List.map_nil, serJsonFields]
  | cons f fs ih =>
    cases vs with
    | nil => simp only [List.map_cons, serJsonFields]
    | cons v vs =>
      have e : serJson env.narrow fl f.narrow.ty v = serJson env fl f.ty v := h v (by simp) f.ty
      simp only [List.map_cons, serJsonFields, e, ih (vs := vs) fun w hw => h w (by simp [hw]), List.isEmpty_map]
      rfl

theorem serJsonVarFields_narrow {fs : List Field} {vs : List Val} (h : ∀ w ∈ vs, ∀ t, serJson env.narrow fl t.narrow w = serJson env fl t w) : serJsonVarFields env.narrow fl (fs.map Field.narrow) vs = serJsonVarFields env fl fs vs := by
  induction fs generalizing vs with
  | nil => cases vs <;> simp only [List.map_nil, serJsonVarFields]
  | cons f fs ih =>
    cases vs with
    | nil => simp only [List.map_cons, serJsonVarFields]
    | cons v vs =>
      have e : serJson env.narrow fl f.narrow.ty v = serJson env fl f.ty v := h v (by simp) f.ty
      simp only [List.map_cons, serJsonVarFields, e, ih (vs := vs) fun w hw => h w (by simp [hw]), List.isEmpty_map]
      rfl

theorem serJson_narrow (env : Env) (fl : FloatOps) (v : Val) : ∀ t : Ty, serJson env.narrow fl t.narrow v = serJson env fl t v := by
  induction v using Val.sizeInd with
  | _ v ih =>
  intro t
  have seq : ∀ {vs : List Val}, v = .seq vs → ∀ w ∈ vs, ∀ t, serJson env.narrow fl t.narrow w = serJson env fl t w := by
    intro vs e w hw t
    have := Val.sizeOf_mem hw
    exact ih w (by subst e; simp; omega) t
  have ent : ∀ {vs : List Val}, v = .seq vs → ∀ a b, Val.entry a b ∈ vs → ∀ t, serJson env.narrow fl t.narrow a = serJson env fl t a ∧ serJson env.narrow fl t.narrow b = serJson env fl t b := by
    intro vs e a b hm t
    have := Val.sizeOf_mem hm
    simp only [Val.entry.sizeOf_spec] at this
    exact ⟨ih a (by subst e; simp; omega) t, ih b (by subst e; simp; omega) t⟩
  have str : ∀ {vs : List Val}, v = .struct vs → ∀ w ∈ vs, ∀ t, serJson env.narrow fl t.narrow w = serJson env fl t w := by
    intro vs e w hw t
    have := Val.sizeOf_mem hw
    exact ih w (by subst e; simp; omega) t
  have var : ∀ {j : Nat} {vs : List Val}, v = .variant j vs → ∀ w ∈ vs, ∀ t, serJson env.narrow fl t.narrow w = serJson env fl t w := by
    intro j vs e w hw t
    have := Val.sizeOf_mem hw
    exact ih w (by subst e; simp; omega) t
  cases t with
  | unit | bool | f32 | f64 | str | dur | time => cases v <;> rfl
  | int k => cases k <;> cases v <;> rfl
  | option t =>
    cases v with
    | some w => simp only [Ty.narrow, serJson]; exact ih w (by simp) t
    | _ => rfl
  | box t =>
    cases v with
    | box w => simp only [Ty.narrow, serJson]; exact ih w (by simp) t
    | _ => rfl
  | vec t | hset t | linked t | bset t | array t _ =>
    cases v with
    | seq vs => simp only [Ty.narrow, serJson, serJsonAll_narrow (seq rfl)]
    | _ => rfl
  | hmap k t | bmap k t =>
    cases v with
    | seq vs => simp only [Ty.narrow, serJson, serJsonEntries_narrow (ent rfl)]
    | _ => rfl
  | pair a b =>
    cases v with
    | seq vs => simp only [Ty.narrow, serJson]; rw [← serJsonTys_narrow (ts := [a, b]) (seq rfl)]; rfl
    | _ => rfl
  | triple a b c =>
    cases v with
    | seq vs => simp only [Ty.narrow, serJson]; rw [← serJsonTys_narrow (ts := [a, b, c]) (seq rfl)]; rfl
    | _ => rfl
  | quad a b c d =>
    cases v with
    | seq vs => simp only [Ty.narrow, serJson]; rw [← serJsonTys_narrow (ts := [a, b, c, d]) (seq rfl)]; rfl
    | _ => rfl
  | proxied i =>
    cases v with
    | prox o p =>
      have e : env.narrow.proxies[i]? = env.proxies[i]?.map fun p => { p with ty := p.ty.narrow } := List.getElem?_map ..
      simp only [Ty.narrow, serJson, e]
      cases env.proxies[i]? with
      | none => rfl
      | some px => exact ih p (by simp <;> omega) px.ty
    | _ => rfl
  | named i =>
    have e : env.narrow.defs[i]? = env.defs[i]?.map Def.narrow := List.getElem?_map ..
    cases v with
    | struct vs =>
      simp only [Ty.narrow, serJson, e]
      cases env.defs[i]? with
      | none => rfl
      | some d =>
        cases d with
        | struct fs cd nul => simp only [Option.map_some, Def.narrow, serJsonFields_narrow (str rfl)]
        | tuple ts tr => simp only [Option.map_some, Def.narrow, serJsonTys_narrow (str rfl), List.isEmpty_map, List.length_map]
        | enum vars => rfl
    | variant j vs =>
      simp only [Ty.narrow, serJson, e]
      cases env.defs[i]? with
      | none => rfl
      | some d =>
        cases d with
        | struct fs cd nul => rfl
        | tuple ts tr => rfl
        | enum vars =>
          simp only [Option.map_some, Def.narrow, List.getElem?_map]
          cases vars[j]? with
          | none => rfl
          | some x =>
            obtain ⟨nm, rn, sh⟩ := x
            cases sh with
            | unit => rfl
            | tuple ts => simp only [Option.map_some, Variant.narrow, serJsonTys_narrow (var rfl)]
            | named fs => simp only [Option.map_some, Variant.narrow, serJsonVarFields_narrow (var rfl)]
    | _ => rfl

theorem serRonAll_narrow {t : Ty} {vs : List Val} (h : ∀ w ∈ vs, ∀ t, serRon env.narrow fl t.narrow w = serRon env fl t w) : serRonAll env.narrow fl t.narrow vs = serRonAll env fl t vs := by
  induction vs with
  | nil => simp only [serRonAll]
  | cons v vs ih => simp only [serRonAll, h v (by simp), ih fun w hw => h w (by simp [hw])]

theorem serRonEntries_narrow {k t : Ty} {vs : List Val} (h : ∀ a b, Val.entry a b ∈ vs → ∀ t, serRon env.narrow fl t.narrow a = serRon env fl t a ∧ serRon env.narrow fl t.narrow b = serRon env fl t b) :
    serRonEntries env.narrow fl k.narrow t.narrow vs = serRonEntries env fl k t vs := by
  induction vs with
  | nil => simp only [serRonEntries]
  | cons v vs ih =>
    have ih := ih fun a b hm => h a b (by simp [hm])
    cases v with
    | entry a b => simp only [serRonEntries, (h a b (by simp) k).1, (h a b (by simp) t).2, ih]
    | _ => simp only [serRonEntries, ih]

theorem serRonTys_narrow {ts : List Ty} {vs : List Val} (h : ∀ w ∈ vs, ∀ t, serRon env.narrow fl t.narrow w = serRon env fl t w) : serRonTys env.narrow fl (ts.map Ty.narrow) vs = serRonTys env fl ts vs := by
  induction ts generalizing vs with
  | nil => cases vs <;> simp only [List.map_nil, serRonTys]
  | cons t ts ih =>
    cases vs with
    | nil => simp only [List.map_cons, serRonTys]
    | cons v vs => simp only [List.map_cons, serRonTys, h v (by simp), ih (vs := vs) fun w hw => h w (by simp [hw])]

theorem serRonFields_narrow {at_ : Bool} {fs : List Field} {vs : List Val} (h : ∀ w ∈ vs, ∀ t, serRon env.narrow fl t.narrow w = serRon env fl t w) : serRonFields env.narrow fl at_ (fs.map Field.narrow) vs = serRonFields env fl at_ fs vs := by
  induction fs generalizing vs with
  | nil => cases vs <;> simp only [List.map_nil, serRonFields]
  | cons f fs ih =>
    cases vs with
    | nil => simp only [List.map_cons, serRonFields]
    | cons v vs =>
      have e : serRon env.narrow fl f.narrow.ty v = serRon env fl f.ty v := h v (by simp) f.ty
      simp only [List.map_cons, serRonFields, e, ih (vs := vs) fun w hw => h w (by simp [hw]), List.isEmpty_map]
      rfl

theorem serRon_narrow (env : Env) (fl : FloatOps) (v : Val) : ∀ t : Ty, serRon env.narrow fl t.narrow v = serRon env fl t v := by
  induction v using Val.sizeInd with
  | _ v ih =>
  intro t
  have seq : ∀ {vs : List Val}, v = .seq vs → ∀ w ∈ vs, ∀ t, serRon env.narrow fl t.narrow w = serRon env fl t w := by
    intro vs e w hw t
    have := Val.sizeOf_mem hw
    exact ih w (by subst e; simp; omega) t
  have ent : ∀ {vs : List Val}, v = .seq vs → ∀ a b, Val.entry a b ∈ vs → ∀ t, serRon env.narrow fl t.narrow a = serRon env fl t a ∧ serRon env.narrow fl t.narrow b = serRon env fl t b := by
    intro vs e a b hm t
    have := Val.sizeOf_mem hm
    simp only [Val.entry.sizeOf_spec] at this
    exact ⟨ih a (by subst e; simp; omega) t, ih b (by subst e; simp; omega) t⟩
  have str : ∀ {vs : List Val}, v = .struct vs → ∀ w ∈ vs, ∀ t, serRon env.narrow fl t.narrow w = serRon env fl t w := by
    intro vs e w hw t
    have := Val.sizeOf_mem hw
    exact ih w (by subst e; simp; omega) t
  have var : ∀ {j : Nat} {vs : List Val}, v = .variant j vs → ∀ w ∈ vs, ∀ t, serRon env.narrow fl t.narrow w = serRon env fl t w := by
    intro j vs e w hw t
    have := Val.sizeOf_mem hw
    exact ih w (by subst e; simp; omega) t
  cases t with
  | unit | bool | f32 | f64 | str | dur | time => cases v <;> rfl
  | int k => cases k <;> cases v <;> rfl
  | option t =>
    cases v with
    | some w => simp only [Ty.narrow, serRon]; exact ih w (by simp) t
    | _ => rfl
  | box t =>
    cases v with
    | box w => simp only [Ty.narrow, serRon]; exact ih w (by simp) t
    | _ => rfl
  | vec t | hset t | linked t | bset t | array t _ =>
    cases v with
    | seq vs => simp only [Ty.narrow, serRon, serRonAll_narrow (seq rfl)]
    | _ => rfl
  | hmap k t | bmap k t =>
    cases v with
    | seq vs => simp only [Ty.narrow, serRon, serRonEntries_narrow (ent rfl)]
    | _ => rfl
  | pair a b =>
    cases v with
    | seq vs => simp only [Ty.narrow, serRon]; rw [← serRonTys_narrow (ts := [a, b]) (seq rfl)]; rfl
    | _ => rfl
  | triple a b c =>
    cases v with
    | seq vs => simp only [Ty.narrow, serRon]; rw [← serRonTys_narrow (ts := [a, b, c]) (seq rfl)]; rfl
    | _ => rfl
  | quad a b c d =>
    cases v with
    | seq vs => simp only [Ty.narrow, serRon]; rw [← serRonTys_narrow (ts := [a, b, c, d]) (seq rfl)]; rfl
    | _ => rfl
  | proxied i =>
    cases v with
    | prox o p =>
      have e : env.narrow.proxies[i]? = env.proxies[i]?.map fun p => { p with ty := p.ty.narrow } := List.getElem?_map ..
      simp only [Ty.narrow, serRon, e]
      cases env.proxies[i]? with
      | none => rfl
      | some px => exact ih p (by simp <;> omega) px.ty
    | _ => rfl
  | named i =>
    have e : env.narrow.defs[i]? = env.defs[i]?.map Def.narrow := List.getElem?_map ..
    cases v with
    | struct vs =>
      simp only [Ty.narrow, serRon, e]
      cases env.defs[i]? with
      | none => rfl
      | some d =>
        cases d with
        | struct fs cd nul => simp only [Option.map_some, Def.narrow, serRonFields_narrow (str rfl)]
        | tuple ts tr => simp only [Option.map_some, Def.narrow, serRonTys_narrow (str rfl)]
        | enum vars => rfl
    | variant j vs =>
      simp only [Ty.narrow, serRon, e]
      cases env.defs[i]? with
      | none => rfl
      | some d =>
        cases d with
        | struct fs cd nul => rfl
        | tuple ts tr => rfl
        | enum vars =>
          simp only [Option.map_some, Def.narrow, List.getElem?_map]
          cases vars[j]? with
          | none => rfl
          | some x =>
            obtain ⟨nm, rn, sh⟩ := x
            cases sh with
            | unit => rfl
            | tuple ts => simp only [Option.map_some, Variant.narrow, serRonTys_narrow (var rfl)]
            | named fs => simp only [Option.map_some, Variant.narrow, serRonFields_narrow (var rfl)]
    | _ => rfl

theorem visitsEmptyAll_narrow {t : Ty} {vs : List Val} (h : ∀ w ∈ vs, ∀ t, visitsEmptyArray env.narrow t.narrow w = visitsEmptyArray env t w) : visitsEmptyAll env.narrow t.narrow vs = visitsEmptyAll env t vs := by
  induction vs with
  | nil => simp only [visitsEmptyAll]
  | cons v vs ih => simp only [visitsEmptyAll, h v (by simp), ih fun w hw => h w (by simp [hw])]

theorem visitsEmptyEntries_narrow {k t : Ty} {vs : List Val} (h : ∀ a b, Val.entry a b ∈ vs → ∀ t, visitsEmptyArray env.narrow t.narrow a = visitsEmptyArray env t a ∧ visitsEmptyArray env.narrow t.narrow b = visitsEmptyArray env t b) :
    visitsEmptyEntries env.narrow k.narrow t.narrow vs = visitsEmptyEntries env k t vs := by
  induction vs with
  | nil => simp only [visitsEmptyEntries]
  | cons v vs ih =>
    have ih := ih fun a b hm => h a b (by simp [hm])
    cases v with
    | entry a b => simp only [visitsEmptyEntries, (h a b (by simp) k).1, (h a b (by simp) t).2, ih]
    | _ => simp only [visitsEmptyEntries, ih]

theorem visitsEmptyTys_narrow {ts : List Ty} {vs : List Val} (h : ∀ w ∈ vs, ∀ t, visitsEmptyArray env.narrow t.narrow w = visitsEmptyArray env t w) : visitsEmptyTys env.narrow (ts.map Ty.narrow) vs = visitsEmptyTys env ts vs := by
  induction ts generalizing vs with
  | nil => cases vs <;> simp only [List.map_nil, visitsEmptyTys]
  | cons t ts ih =>
    cases vs with
    | nil => simp only [List.map_cons, visitsEmptyTys]
    | cons v vs => simp only [List.map_cons, visitsEmptyTys, h v (by simp), ih (vs := vs) fun w hw => h w (by simp [hw])]

theorem visitsEmptyFields_narrow {us : Bool} {fs : List Field} {vs : List Val} (h : ∀ w ∈ vs, ∀ t, visitsEmptyArray env.narrow t.narrow w = visitsEmptyArray env t w) : visitsEmptyFields env.narrow us (fs.map Field.narrow) vs = visitsEmptyFields env us fs vs := by
  induction fs generalizing vs with
  | nil => cases vs <;> simp only [List.map_nil, visitsEmptyFields]
  | cons f fs ih =>
    cases vs with
    | nil => simp only [List.map_cons, visitsEmptyFields]
    | cons v vs =>
      have e : visitsEmptyArray env.narrow f.narrow.ty v = visitsEmptyArray env f.ty v := h v (by simp) f.ty
      simp only [List.map_cons, visitsEmptyFields, e, ih (vs := vs) fun w hw => h w (by simp [hw]), List.isEmpty_map]
      rfl

theorem visitsEmptyArray_narrow (env : Env) (v : Val) : ∀ t : Ty, visitsEmptyArray env.narrow t.narrow v = visitsEmptyArray env t v := by
  induction v using Val.sizeInd with
  | _ v ih =>
  intro t
  have seq : ∀ {vs : List Val}, v = .seq vs → ∀ w ∈ vs, ∀ t, visitsEmptyArray env.narrow t.narrow w = visitsEmptyArray env t w := by
    intro vs e w hw t
    have := Val.sizeOf_mem hw
    exact ih w (by subst e; simp; omega) t
  have ent : ∀ {vs : List Val}, v = .seq vs → ∀ a b, Val.entry a b ∈ vs → ∀ t, visitsEmptyArray env.narrow t.narrow a = visitsEmptyArray env t a ∧ visitsEmptyArray env.narrow t.narrow b = visitsEmptyArray env t b := by
    intro vs e a b hm t
    have := Val.sizeOf_mem hm
    simp only [Val.entry.sizeOf_spec] at this
    exact ⟨ih a (by subst e; simp; omega) t, ih b (by subst e; simp; omega) t⟩
  have str : ∀ {vs : List Val}, v = .struct vs → ∀ w ∈ vs, ∀ t, visitsEmptyArray env.narrow t.narrow w = visitsEmptyArray env t w := by
    intro vs e w hw t
    have := Val.sizeOf_mem hw
    exact ih w (by subst e; simp; omega) t
  have var : ∀ {j : Nat} {vs : List Val}, v = .variant j vs → ∀ w ∈ vs, ∀ t, visitsEmptyArray env.narrow t.narrow w = visitsEmptyArray env t w := by
    intro j vs e w hw t
    have := Val.sizeOf_mem hw
    exact ih w (by subst e; simp; omega) t
  cases t with
  | unit | bool | f32 | f64 | str | dur | time => cases v <;> rfl
  | int k => cases k <;> cases v <;> rfl
  | option t =>
    cases v with
    | some w => simp only [Ty.narrow, visitsEmptyArray]; exact ih w (by simp) t
    | _ => rfl
  | box t =>
    cases v with
    | box w => simp only [Ty.narrow, visitsEmptyArray]; exact ih w (by simp) t
    | _ => rfl
  | vec t | hset t | linked t | bset t | array t _ =>
    cases v with
    | seq vs => simp only [Ty.narrow, visitsEmptyArray, visitsEmptyAll_narrow (seq rfl)]
    | _ => rfl
  | hmap k t | bmap k t =>
    cases v with
    | seq vs => simp only [Ty.narrow, visitsEmptyArray, visitsEmptyEntries_narrow (ent rfl)]
    | _ => rfl
  | pair a b =>
    cases v with
    | seq vs => simp only [Ty.narrow, visitsEmptyArray]; rw [← visitsEmptyTys_narrow (ts := [a, b]) (seq rfl)]; rfl
    | _ => rfl
  | triple a b c =>
    cases v with
    | seq vs => simp only [Ty.narrow, visitsEmptyArray]; rw [← visitsEmptyTys_narrow (ts := [a, b, c]) (seq rfl)]; rfl
    | _ => rfl
  | quad a b c d =>
    cases v with
    | seq vs => simp only [Ty.narrow, visitsEmptyArray]; rw [← visitsEmptyTys_narrow (ts := [a, b, c, d]) (seq rfl)]; rfl
    | _ => rfl
  | proxied i =>
    cases v with
    | prox o p =>
      have e : env.narrow.proxies[i]? = env.proxies[i]?.map fun p => { p with ty := p.ty.narrow } := List.getElem?_map ..
      simp only [Ty.narrow, visitsEmptyArray, e]
      cases env.proxies[i]? with
      | none => rfl
      | some px => exact ih p (by simp <;> omega) px.ty
    | _ => rfl
  | named i =>
    have e : env.narrow.defs[i]? = env.defs[i]?.map Def.narrow := List.getElem?_map ..
    cases v with
    | struct vs =>
      simp only [Ty.narrow, visitsEmptyArray, e]
      cases env.defs[i]? with
      | none => rfl
      | some d =>
        cases d with
        | struct fs cd nul => simp only [Option.map_some, Def.narrow, visitsEmptyFields_narrow (str rfl)]
        | tuple ts tr => simp only [Option.map_some, Def.narrow, visitsEmptyTys_narrow (str rfl)]
        | enum vars => rfl
    | variant j vs =>
      simp only [Ty.narrow, visitsEmptyArray, e]
      cases env.defs[i]? with
      | none => rfl
      | some d =>
        cases d with
        | struct fs cd nul => rfl
        | tuple ts tr => rfl
        | enum vars =>
          simp only [Option.map_some, Def.narrow, List.getElem?_map]
          cases vars[j]? with
          | none => rfl
          | some x =>
            obtain ⟨nm, rn, sh⟩ := x
            cases sh with
            | unit => rfl
            | tuple ts => simp only [Option.map_some, Variant.narrow, visitsEmptyTys_narrow (var rfl)]
            | named fs => simp only [Option.map_some, Variant.narrow, visitsEmptyFields_narrow (var rfl)]
    | _ => rfl

theorem serializeJson_narrow (env : Env) (fl : FloatOps) (chk : Bool) (t : Ty) (v : Val) :
    serializeJson env.narrow fl chk t.narrow v = serializeJson env fl chk t v := by
  unfold serializeJson
  rw [visitsEmptyArray_narrow, serJson_narrow]

theorem serializeRon_narrow (env : Env) (fl : FloatOps) (chk : Bool) (t : Ty) (v : Val) :
    serializeRon env.narrow fl chk t.narrow v = serializeRon env fl chk t v := by
  unfold serializeRon
  rw [visitsEmptyArray_narrow, serRon_narrow]

end NS
