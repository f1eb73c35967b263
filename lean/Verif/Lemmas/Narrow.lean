import Verif.Lemmas.Par
/-! A program reads what the same program with `u32` in place of `usize` reads, on both kinds of targets. -/
namespace NS

/-- The first run, if it succeeds, is the second. -/
def simLe : Sim where
  R s s' := s' = s
  E _ _ := True
  P := True
  X := True
  tok := by rintro _ _ rfl; rfl
  str := by rintro _ _ rfl; rfl
  ident := by rintro _ _ rfl; rfl
  setStr := by rintro _ _ _ rfl; rfl
  err := by intros; trivial

theorem simLe_refl {α : Type} (x : PM α) : Rel simLe x x := by
  intro s s' h
  cases (h : s' = s)
  cases x s <;> simp [OutRel, simLe]

theorem Rel.le_ok {α : Type} {x y : PM α} (h : Rel simLe x y) {s : PSt} {a s'} (hx : x s = .ok a s') : y s = .ok a s' := by
  have := h s s rfl
  rw [hx] at this
  cases hy : y s with
  | ok b s2 => rw [hy] at this; obtain ⟨h1, h2⟩ := this; cases h1; cases h2; rfl
  | err _ _ => rw [hy] at this; exact this.elim
  | panic => rw [hy] at this; exact this.elim
  | oof => rw [hy] at this; exact this.elim

/-- Both `usize` readers agree with the reader of `u32` where that succeeds. -/
theorem u64Range_le {α : Type} {m m' : Nat} (h : m ≤ m') {f g : Nat → PM α} (hf : ∀ v, v ≤ m → Rel simLe (f v) (g v)) :
    Rel simLe (u64Range m >>= f) (u64Range m' >>= g) := by
  intro s s' h
  cases (h : s' = s)
  rw [M.bind_def, M.bind_def]
  have e : ∀ m, u64Range m s = (match s.tok with
      | .u64 v => if v > m then errRange (showNat v ++ '>' :: showNat m) else Pure.pure v
      | _ => errToken "unsigned integer" : PM Nat) s := fun _ => rfl
  rw [e, e]
  cases ht : s.tok with
  | u64 v =>
    simp only
    by_cases hv : v > m
    · rw [if_pos hv]; exact OutRel.ofX trivial _ _ _
    · rw [if_neg hv, if_neg (by omega)]
      exact hf v (by omega) s s rfl
  | _ => exact OutRel.ofX trivial _ _ _

theorem Rel.deInt64 {nx : PM Unit} (hn : Rel simLe nx nx) (k : IntKind) :
    Rel simLe (match k with | .usize => NS.deInt nx .u32 | k => NS.deInt nx k) (NS.deInt nx k) := by
  cases k with
  | usize =>
    refine u64Range_le (by decide) fun v hv => Rel.bind hn fun _ => ?_
    have : castInt .u32 v = castInt .usize v := by
      have h1 : (IntKind.hi .u32).toNat = 2 ^ 32 - 1 := by decide
      rw [h1] at hv
      simp only [castInt, toTwos, ofTwos, IntKind.signed, IntKind.bytes]
      simp
      omega
    rw [this]
    exact Rel.pure _
  | _ => exact Rel.deInt hn _

theorem Rel.deInt32 {nx : PM Unit} (hn : Rel simLe nx nx) (k : IntKind) :
    Rel simLe (match k with | .usize => NS.deInt nx .u32 | k => NS.deInt nx k) (W32.deInt nx k) := by
  cases k with
  | usize =>
    refine u64Range_le (m' := u64Max) (by decide) fun v hv => Rel.bind hn fun _ => ?_
    have : castInt .u32 v = ((v % 2 ^ 32 : Nat) : Int) := by
      have h1 : (IntKind.hi .u32).toNat = 2 ^ 32 - 1 := by decide
      rw [h1] at hv
      simp only [castInt, toTwos, ofTwos, IntKind.signed, IntKind.bytes]
      simp
      try omega
    rw [this]
    exact Rel.pure _
  | _ => exact Rel.deInt hn _

theorem collInsert_narrow (env : Env) (c : Coll) : collInsert env.narrow c = collInsert env c := by
  have h1 : ∀ m k v, hmapInsert env.narrow m k v = hmapInsert env m k v := by
    intro m k v
    induction m with
    | nil => rfl
    | cons e m ih => cases e <;> simp only [hmapInsert, ih] <;> rfl
  have h2 : ∀ m k v, bmapInsert env.narrow m k v = bmapInsert env m k v := by
    intro m k v
    induction m with
    | nil => rfl
    | cons e m ih => cases e <;> simp only [bmapInsert, ih] <;> rfl
  have h3 : ∀ m k, bsetInsert env.narrow m k = bsetInsert env m k := by
    intro m k
    induction m with
    | nil => rfl
    | cons e m ih => simp only [bsetInsert, ih]; rfl
  funext s x
  cases c with
  | hset => rfl
  | bset => exact h3 s x
  | hmap => cases x <;> first | rfl | exact h1 s _ _
  | bmap => cases x <;> first | rfl | exact h2 s _ _

/-! The narrowed definitions have the same names and defaults. -/

theorem findField_narrow (fs : List Field) (key) : findField (fs.map Field.narrow) key = findField fs key := by
  unfold findField
  rw [List.findIdx?_map]
  rfl

theorem getD_narrow (fs : List Field) (i : Nat) :
    (fs.map Field.narrow).getD i { name := [], ty := .unit } = (fs.getD i { name := [], ty := .unit }).narrow := by
  rw [List.getD_eq_getElem?_getD, List.getD_eq_getElem?_getD, List.getElem?_map]
  cases fs[i]? <;> rfl

theorem deField_narrow (d : Ty → PM Val) (f : Field) : deField d f.narrow = deField (fun t => d t.narrow) f := by
  obtain ⟨nm, ty, rn, os, sk, nn, da, td, op⟩ := f
  unfold deField Field.narrow
  cases op with
  | false => rfl
  | true =>
    cases ty with
    | int k => cases k <;> rfl
    | _ => rfl

theorem unwrapFields_narrow (cd) (fs : List Field) (acc) : unwrapFields cd (fs.map Field.narrow) acc = unwrapFields cd fs acc := by
  induction fs generalizing acc with
  | nil => rfl
  | cons f fs ih =>
    cases acc with
    | nil => rfl
    | cons o os =>
      rw [List.map_cons, unwrapFields, unwrapFields, ih]
      rfl

theorem jMember_narrow (nx n) (d : Ty → PM Val) (fs : List Field) :
    jMember nx n d (fs.map Field.narrow) = jMember nx n (fun t => d t.narrow) fs := by
  funext acc
  unfold jMember jMemberValue
  simp only [findField_narrow, getD_narrow, deField_narrow, List.isEmpty_map]

theorem deJsonNamed_narrow (nx n) (d : Ty → PM Val) (cd) (fs : List Field) :
    deJsonNamed nx n d cd (fs.map Field.narrow) = deJsonNamed nx n (fun t => d t.narrow) cd fs := by
  unfold deJsonNamed
  simp only [jMember_narrow, unwrapFields_narrow, List.map_map]
  rfl

theorem deTysEat_narrow (d : Ty → PM Val) (e) (ts : List Ty) :
    deTysEat d e (ts.map Ty.narrow) = deTysEat (fun t => d t.narrow) e ts := by
  induction ts with
  | nil => rfl
  | cons t ts ih => rw [List.map_cons, deTysEat, deTysEat, ih]

theorem deJsonTupleStruct_narrow (nx) (d : Ty → PM Val) (ts tr) :
    deJsonTupleStruct nx d (ts.map Ty.narrow) tr = deJsonTupleStruct nx (fun t => d t.narrow) ts tr := by
  match ts, tr with
  | [], _ => rfl
  | [t], true => rfl
  | [t], false => rfl
  | t :: t' :: ts, tr =>
    have h1 : ∀ (d : Ty → PM Val) t t' ts, NS.deJsonTupleStruct nx d (t :: t' :: ts) tr = (do
        blockOpen nx
        let vs ← NS.deTysEat d (eatCommaBlock nx) (t :: t' :: ts)
        blockClose nx
        Pure.pure (.struct vs)) := by intro d t t' ts; cases tr <;> rfl
    rw [List.map_cons, List.map_cons, h1, h1, ← List.map_cons, ← List.map_cons, deTysEat_narrow]

theorem deJsonShape_narrow (nx n) (d : Ty → PM Val) (v : Variant) :
    deJsonShape nx n d v.narrow.shape = deJsonShape nx n (fun t => d t.narrow) v.shape := by
  obtain ⟨nm, rn, sh⟩ := v
  cases sh with
  | unit => rfl
  | tuple ts => simp only [Variant.narrow, deJsonShape, deTysEat_narrow]
  | named fs => simp only [Variant.narrow, deJsonShape, deJsonNamed_narrow]

theorem isUnit_narrow (v : Variant) : v.narrow.isUnit = v.isUnit := by
  obtain ⟨nm, rn, sh⟩ := v
  cases sh <;> rfl

theorem getD_narrow' (vs : List Variant) (i : Nat) :
    (vs.map Variant.narrow).getD i { name := [], shape := .unit } = (vs.getD i { name := [], shape := .unit }).narrow := by
  rw [List.getD_eq_getElem?_getD, List.getD_eq_getElem?_getD, List.getElem?_map]
  cases vs[i]? <;> rfl

theorem findVariant_narrow (vs : List Variant) (u name) : findVariant (vs.map Variant.narrow) u name = findVariant vs u name := by
  unfold findVariant
  rw [List.findIdx?_map]
  congr 1
  funext v
  simp only [Function.comp, isUnit_narrow]
  rfl

theorem any_narrow (vs : List Variant) (p : Bool → Bool) : (vs.map Variant.narrow).any (fun v => p v.isUnit) = vs.any fun v => p v.isUnit := by
  rw [List.any_map]
  congr 1
  funext v
  simp only [Function.comp, isUnit_narrow]

theorem deJsonEnum_narrow (nx n) (d : Ty → PM Val) (vs : List Variant) :
    deJsonEnum nx n d (vs.map Variant.narrow) = deJsonEnum nx n (fun t => d t.narrow) vs := by
  unfold deJsonEnum
  simp only [findVariant_narrow, getD_narrow', deJsonShape_narrow, any_narrow vs (fun b => b), any_narrow vs (fun b => !b)]

theorem deRonNamed_narrow (nx n) (d : Ty → PM Val) (cd) (fs : List Field) :
    deRonNamed nx n d cd (fs.map Field.narrow) = deRonNamed nx n (fun t => d t.narrow) cd fs := by
  have h : rMember nx d (fs.map Field.narrow) = rMember nx (fun t => d t.narrow) fs := by
    funext acc
    unfold rMember rMemberValue
    simp only [findField_narrow, getD_narrow, List.isEmpty_map]
    rfl
  unfold deRonNamed
  simp only [h, unwrapFields_narrow, List.map_map]
  rfl

theorem deRonTys_narrow (nx) (d : Ty → PM Val) (ts : List Ty) :
    deRonTys nx d (ts.map Ty.narrow) = deRonTys nx (fun t => d t.narrow) ts := by
  unfold deRonTys
  rw [deTysEat_narrow]

theorem deRonShape_narrow (nx n) (d : Ty → PM Val) (v : Variant) :
    deRonShape nx n d v.narrow.shape = deRonShape nx n (fun t => d t.narrow) v.shape := by
  obtain ⟨nm, rn, sh⟩ := v
  cases sh with
  | unit => rfl
  | tuple ts => simp only [Variant.narrow, deRonShape, deRonTys_narrow]
  | named fs => simp only [Variant.narrow, deRonShape, deRonNamed_narrow]

theorem deRonEnum_narrow (nx n) (d : Ty → PM Val) (vs : List Variant) :
    deRonEnum nx n d (vs.map Variant.narrow) = deRonEnum nx n (fun t => d t.narrow) vs := by
  have h : ∀ name : List Char, (vs.map Variant.narrow).findIdx? (fun v => v.name == name) = vs.findIdx? fun v => v.name == name := by
    intro name
    rw [List.findIdx?_map]
    rfl
  unfold deRonEnum
  simp only [h, getD_narrow', deRonShape_narrow]

theorem deJson_narrow (env : Env) (fl : FloatOps) (n : Nat) (t : Ty) : Rel simLe (NS.deJson env.narrow fl n t.narrow) (NS.deJson env fl n t) := by
  have hn : Rel simLe (jNext fl) (jNext fl) := simLe_refl _
  induction n generalizing t with
  | zero => exact Rel.oof _
  | succ n ih =>
    cases t with
    | unit => exact Rel.bind (Rel.expectTok hn _ _) fun _ => Rel.pure _
    | bool => exact Rel.bool hn
    | int k => have := Rel.deInt64 hn k; cases k <;> exact this
    | f32 => exact Rel.deF32 hn fl
    | f64 => exact Rel.deF64 hn fl
    | str => exact Rel.bind (Rel.deStr hn) fun _ => Rel.pure _
    | dur => exact Rel.deDur hn trivial (Nat.le_refl _)
    | time =>
      refine Rel.look fun s s' hs => ?_
      rw [simLe.tok hs]
      split
      · exact Rel.bind hn (fun _ => Rel.epochAt trivial _) _ _ hs
      · exact Rel.bind (Rel.deDur hn trivial (Nat.le_refl _)) (fun _ => Rel.epochAt trivial _) _ _ hs
    | option t =>
      refine Rel.look fun s s' hs => ?_
      rw [simLe.tok hs]
      split
      · exact Rel.bind hn (fun _ => Rel.pure _) _ _ hs
      · exact Rel.bind (ih t) (fun _ => Rel.pure _) _ _ hs
    | vec t | linked t => exact Rel.deSeq hn (ih t) (Nat.le_refl _) _
    | hset t | bset t =>
      simp only [Ty.narrow, NS.deJson, W32.deJson, collInsert_narrow]
      exact Rel.deSeq hn (ih t) (Nat.le_refl _) _
    | array t len =>
      exact Rel.bind (Rel.expectTok hn _ _) fun _ =>
        Rel.bind (Rel.repeatM (Rel.thenEat (ih t) (Rel.eatComma hn _ _)) _) fun _ =>
          Rel.bind (Rel.expectTok hn _ _) fun _ => Rel.pure _
    | pair a b =>
      have := Rel.deTuple (S := simLe) (f := fun u => NS.deJson env.narrow fl n u.narrow) (g := NS.deJson env fl n) (o := blockOpen (jNext fl)) (c := blockClose (jNext fl)) (e := eatCommaBlock (jNext fl)) (ts := [a, b])
        (Rel.expectTok hn _ _) (Rel.expectTok hn _ _) (Rel.eatComma hn _ _) (fun _ => eatComma_no_panic jNext_no_panic) fun u _ => ih u
      exact this
    | triple a b c =>
      have := Rel.deTuple (S := simLe) (f := fun u => NS.deJson env.narrow fl n u.narrow) (g := NS.deJson env fl n) (o := blockOpen (jNext fl)) (c := blockClose (jNext fl)) (e := eatCommaBlock (jNext fl)) (ts := [a, b, c])
        (Rel.expectTok hn _ _) (Rel.expectTok hn _ _) (Rel.eatComma hn _ _) (fun _ => eatComma_no_panic jNext_no_panic) fun u _ => ih u
      exact this
    | quad a b c d =>
      have := Rel.deTuple (S := simLe) (f := fun u => NS.deJson env.narrow fl n u.narrow) (g := NS.deJson env fl n) (o := blockOpen (jNext fl)) (c := blockClose (jNext fl)) (e := eatCommaBlock (jNext fl)) (ts := [a, b, c, d])
        (Rel.expectTok hn _ _) (Rel.expectTok hn _ _) (Rel.eatComma hn _ _) (fun _ => eatComma_no_panic jNext_no_panic) fun u _ => ih u
      exact this
    | hmap k v | bmap k v =>
      simp only [Ty.narrow, NS.deJson, W32.deJson, collInsert_narrow]
      exact Rel.deMap hn (ih k) (ih v) (Nat.le_refl _) _
    | box t => exact Rel.bind (ih t) fun _ => Rel.pure _
    | named i =>
      have e : env.narrow.defs[i]? = env.defs[i]?.map Def.narrow := List.getElem?_map ..
      simp only [NS.deJson, W32.deJson, e, Ty.narrow]
      cases env.defs[i]? with
      | none => exact Rel.oof _
      | some d =>
        simp only [Option.map_some]
        cases d with
        | struct fs cd nul =>
          simp only [Def.narrow]
          rw [deJsonNamed_narrow]
          exact Rel.bind (Rel.deJsonNamed hn trivial (Nat.le_refl _) cd fun f _ => ⟨ih _, fun t _ => ih _⟩) fun _ => Rel.pure _
        | tuple ts tr =>
          simp only [Def.narrow]
          rw [deJsonTupleStruct_narrow]
          exact Rel.deJsonTupleStruct hn tr fun u _ => ih u
        | enum vars =>
          simp only [Def.narrow]
          rw [deJsonEnum_narrow]
          refine Rel.deJsonEnum hn fun v hv => ?_
          cases v.shape with
          | unit => exact Rel.pure _
          | tuple ts =>
            exact Rel.bind (Rel.expectTok hn _ _) fun _ => Rel.bind (Rel.deTysEat (Rel.eatComma hn _ _)
              fun u _ => ih u) fun _ => Rel.bind (Rel.expectTok hn _ _) fun _ => Rel.pure _
          | named fs => exact Rel.deJsonNamed hn trivial (Nat.le_refl _) false fun f _ => ⟨ih _, fun t _ => ih _⟩
    | proxied i =>
      have e : env.narrow.proxies[i]? = env.proxies[i]?.map fun p => { p with ty := p.ty.narrow } := List.getElem?_map ..
      simp only [NS.deJson, W32.deJson, e, Ty.narrow]
      cases env.proxies[i]? with
      | none => exact Rel.oof _
      | some px => exact Rel.bind (ih px.ty) fun _ => Rel.pure _

theorem deJson_narrow32 (env : Env) (fl : FloatOps) (n : Nat) (t : Ty) : Rel simLe (NS.deJson env.narrow fl n t.narrow) (W32.deJson env fl n t) := by
  have hn : Rel simLe (jNext fl) (jNext fl) := simLe_refl _
  induction n generalizing t with
  | zero => exact Rel.oof _
  | succ n ih =>
    cases t with
    | unit => exact Rel.bind (Rel.expectTok hn _ _) fun _ => Rel.pure _
    | bool => exact Rel.bool hn
    | int k => have := Rel.deInt32 hn k; cases k <;> exact this
    | f32 => exact Rel.deF32 hn fl
    | f64 => exact Rel.deF64 hn fl
    | str => exact Rel.bind (Rel.deStr hn) fun _ => Rel.pure _
    | dur => exact Rel.deDur hn trivial (Nat.le_refl _)
    | time =>
      refine Rel.look fun s s' hs => ?_
      rw [simLe.tok hs]
      split
      · exact Rel.bind hn (fun _ => Rel.epochAt trivial _) _ _ hs
      · exact Rel.bind (Rel.deDur hn trivial (Nat.le_refl _)) (fun _ => Rel.epochAt trivial _) _ _ hs
    | option t =>
      refine Rel.look fun s s' hs => ?_
      rw [simLe.tok hs]
      split
      · exact Rel.bind hn (fun _ => Rel.pure _) _ _ hs
      · exact Rel.bind (ih t) (fun _ => Rel.pure _) _ _ hs
    | vec t | linked t => exact Rel.deSeq hn (ih t) (Nat.le_refl _) _
    | hset t | bset t =>
      simp only [Ty.narrow, NS.deJson, W32.deJson, collInsert_narrow]
      exact Rel.deSeq hn (ih t) (Nat.le_refl _) _
    | array t len =>
      exact Rel.bind (Rel.expectTok hn _ _) fun _ =>
        Rel.bind (Rel.repeatM (Rel.thenEat (ih t) (Rel.eatComma hn _ _)) _) fun _ =>
          Rel.bind (Rel.expectTok hn _ _) fun _ => Rel.pure _
    | pair a b =>
      have := Rel.deTuple (S := simLe) (f := fun u => NS.deJson env.narrow fl n u.narrow) (g := W32.deJson env fl n) (o := blockOpen (jNext fl)) (c := blockClose (jNext fl)) (e := eatCommaBlock (jNext fl)) (ts := [a, b])
        (Rel.expectTok hn _ _) (Rel.expectTok hn _ _) (Rel.eatComma hn _ _) (fun _ => eatComma_no_panic jNext_no_panic) fun u _ => ih u
      exact this
    | triple a b c =>
      have := Rel.deTuple (S := simLe) (f := fun u => NS.deJson env.narrow fl n u.narrow) (g := W32.deJson env fl n) (o := blockOpen (jNext fl)) (c := blockClose (jNext fl)) (e := eatCommaBlock (jNext fl)) (ts := [a, b, c])
        (Rel.expectTok hn _ _) (Rel.expectTok hn _ _) (Rel.eatComma hn _ _) (fun _ => eatComma_no_panic jNext_no_panic) fun u _ => ih u
      exact this
    | quad a b c d =>
      have := Rel.deTuple (S := simLe) (f := fun u => NS.deJson env.narrow fl n u.narrow) (g := W32.deJson env fl n) (o := blockOpen (jNext fl)) (c := blockClose (jNext fl)) (e := eatCommaBlock (jNext fl)) (ts := [a, b, c, d])
        (Rel.expectTok hn _ _) (Rel.expectTok hn _ _) (Rel.eatComma hn _ _) (fun _ => eatComma_no_panic jNext_no_panic) fun u _ => ih u
      exact this
    | hmap k v | bmap k v =>
      simp only [Ty.narrow, NS.deJson, W32.deJson, collInsert_narrow]
      exact Rel.deMap hn (ih k) (ih v) (Nat.le_refl _) _
    | box t => exact Rel.bind (ih t) fun _ => Rel.pure _
    | named i =>
      have e : env.narrow.defs[i]? = env.defs[i]?.map Def.narrow := List.getElem?_map ..
      simp only [NS.deJson, W32.deJson, e, Ty.narrow]
      cases env.defs[i]? with
      | none => exact Rel.oof _
      | some d =>
        simp only [Option.map_some]
        cases d with
        | struct fs cd nul =>
          simp only [Def.narrow]
          rw [deJsonNamed_narrow]
          exact Rel.bind (Rel.deJsonNamed hn trivial (Nat.le_refl _) cd fun f _ => ⟨ih _, fun t _ => ih _⟩) fun _ => Rel.pure _
        | tuple ts tr =>
          simp only [Def.narrow]
          rw [deJsonTupleStruct_narrow]
          exact Rel.deJsonTupleStruct hn tr fun u _ => ih u
        | enum vars =>
          simp only [Def.narrow]
          rw [deJsonEnum_narrow]
          refine Rel.deJsonEnum hn fun v hv => ?_
          cases v.shape with
          | unit => exact Rel.pure _
          | tuple ts =>
            exact Rel.bind (Rel.expectTok hn _ _) fun _ => Rel.bind (Rel.deTysEat (Rel.eatComma hn _ _)
              fun u _ => ih u) fun _ => Rel.bind (Rel.expectTok hn _ _) fun _ => Rel.pure _
          | named fs => exact Rel.deJsonNamed hn trivial (Nat.le_refl _) false fun f _ => ⟨ih _, fun t _ => ih _⟩
    | proxied i =>
      have e : env.narrow.proxies[i]? = env.proxies[i]?.map fun p => { p with ty := p.ty.narrow } := List.getElem?_map ..
      simp only [NS.deJson, W32.deJson, e, Ty.narrow]
      cases env.proxies[i]? with
      | none => exact Rel.oof _
      | some px => exact Rel.bind (ih px.ty) fun _ => Rel.pure _

theorem deRon_narrow (env : Env) (fl : FloatOps) (n : Nat) (t : Ty) : Rel simLe (NS.deRon env.narrow fl n t.narrow) (NS.deRon env fl n t) := by
  have hn : Rel simLe (rNext fl) (rNext fl) := simLe_refl _
  induction n generalizing t with
  | zero => exact Rel.oof _
  | succ n ih =>
    cases t with
    | unit => exact Rel.bind (Rel.expectTok hn _ _) fun _ => Rel.bind (Rel.expectTok hn _ _) fun _ => Rel.pure _
    | bool => exact Rel.ronBool hn
    | int k => have := Rel.deInt64 hn k; cases k <;> exact this
    | f32 => exact Rel.deF32 hn fl
    | f64 => exact Rel.deF64 hn fl
    | str => exact Rel.bind (Rel.deStr hn) fun _ => Rel.pure _
    | dur => exact Rel.deDur hn trivial (Nat.le_refl _)
    | time =>
      refine Rel.look fun s s' hs => ?_
      rw [Rel.atNone hs]
      split
      · exact Rel.bind hn (fun _ => Rel.epochAt trivial _) _ _ hs
      · exact Rel.bind (Rel.deDur hn trivial (Nat.le_refl _)) (fun _ => Rel.epochAt trivial _) _ _ hs
    | option t =>
      refine Rel.look fun s s' hs => ?_
      rw [Rel.atNone hs]
      split
      · exact Rel.bind hn (fun _ => Rel.pure _) _ _ hs
      · exact Rel.bind (ih t) (fun _ => Rel.pure _) _ _ hs
    | vec t | linked t => exact Rel.deSeq hn (ih t) (Nat.le_refl _) _
    | hset t | bset t =>
      simp only [Ty.narrow, NS.deRon, W32.deRon, collInsert_narrow]
      exact Rel.deSeq hn (ih t) (Nat.le_refl _) _
    | array t len =>
      exact Rel.bind (Rel.expectTok hn _ _) fun _ =>
        Rel.bind (Rel.repeatM (Rel.thenEat (ih t) (Rel.eatComma hn _ _)) _) fun _ =>
          Rel.bind (Rel.expectTok hn _ _) fun _ => Rel.pure _
    | pair a b =>
      have := Rel.deTuple (S := simLe) (f := fun u => NS.deRon env.narrow fl n u.narrow) (g := NS.deRon env fl n) (o := parenOpen (rNext fl)) (c := parenClose (rNext fl)) (e := eatCommaParen (rNext fl)) (ts := [a, b])
        (Rel.expectTok hn _ _) (Rel.expectTok hn _ _) (Rel.eatComma hn _ _) (fun _ => eatComma_no_panic rNext_no_panic) fun u _ => ih u
      exact this
    | triple a b c =>
      have := Rel.deTuple (S := simLe) (f := fun u => NS.deRon env.narrow fl n u.narrow) (g := NS.deRon env fl n) (o := parenOpen (rNext fl)) (c := parenClose (rNext fl)) (e := eatCommaParen (rNext fl)) (ts := [a, b, c])
        (Rel.expectTok hn _ _) (Rel.expectTok hn _ _) (Rel.eatComma hn _ _) (fun _ => eatComma_no_panic rNext_no_panic) fun u _ => ih u
      exact this
    | quad a b c d =>
      have := Rel.deTuple (S := simLe) (f := fun u => NS.deRon env.narrow fl n u.narrow) (g := NS.deRon env fl n) (o := parenOpen (rNext fl)) (c := parenClose (rNext fl)) (e := eatCommaParen (rNext fl)) (ts := [a, b, c, d])
        (Rel.expectTok hn _ _) (Rel.expectTok hn _ _) (Rel.eatComma hn _ _) (fun _ => eatComma_no_panic rNext_no_panic) fun u _ => ih u
      exact this
    | hmap k v | bmap k v =>
      simp only [Ty.narrow, NS.deRon, W32.deRon, collInsert_narrow]
      exact Rel.deMap hn (ih k) (ih v) (Nat.le_refl _) _
    | box t => exact Rel.bind (ih t) fun _ => Rel.pure _
    | named i =>
      have e : env.narrow.defs[i]? = env.defs[i]?.map Def.narrow := List.getElem?_map ..
      simp only [NS.deRon, W32.deRon, e, Ty.narrow]
      cases env.defs[i]? with
      | none => exact Rel.oof _
      | some d =>
        simp only [Option.map_some]
        cases d with
        | struct fs cd nul =>
          simp only [Def.narrow]
          rw [deRonNamed_narrow]
          exact Rel.bind (Rel.deRonNamed hn (Nat.le_refl _) cd fun f _ => ih _) fun _ => Rel.pure _
        | tuple ts tr =>
          simp only [Def.narrow]
          rw [deRonTys_narrow]
          exact Rel.bind (Rel.deRonTys hn fun u _ => ih u) fun _ => Rel.pure _
        | enum vars =>
          simp only [Def.narrow]
          rw [deRonEnum_narrow]
          refine Rel.deRonEnum hn fun v hv => ?_
          cases v.shape with
          | unit => exact Rel.pure _
          | tuple ts => exact Rel.deRonTys hn fun u _ => ih u
          | named fs => exact Rel.deRonNamed hn (Nat.le_refl _) false fun f _ => ih _
    | proxied i => exact Rel.oof _

theorem deRon_narrow32 (env : Env) (fl : FloatOps) (n : Nat) (t : Ty) : Rel simLe (NS.deRon env.narrow fl n t.narrow) (W32.deRon env fl n t) := by
  have hn : Rel simLe (rNext fl) (rNext fl) := simLe_refl _
  induction n generalizing t with
  | zero => exact Rel.oof _
  | succ n ih =>
    cases t with
    | unit => exact Rel.bind (Rel.expectTok hn _ _) fun _ => Rel.bind (Rel.expectTok hn _ _) fun _ => Rel.pure _
    | bool => exact Rel.ronBool hn
    | int k => have := Rel.deInt32 hn k; cases k <;> exact this
    | f32 => exact Rel.deF32 hn fl
    | f64 => exact Rel.deF64 hn fl
    | str => exact Rel.bind (Rel.deStr hn) fun _ => Rel.pure _
    | dur => exact Rel.deDur hn trivial (Nat.le_refl _)
    | time =>
      refine Rel.look fun s s' hs => ?_
      rw [Rel.atNone hs]
      split
      · exact Rel.bind hn (fun _ => Rel.epochAt trivial _) _ _ hs
      · exact Rel.bind (Rel.deDur hn trivial (Nat.le_refl _)) (fun _ => Rel.epochAt trivial _) _ _ hs
    | option t =>
      refine Rel.look fun s s' hs => ?_
      rw [Rel.atNone hs]
      split
      · exact Rel.bind hn (fun _ => Rel.pure _) _ _ hs
      · exact Rel.bind (ih t) (fun _ => Rel.pure _) _ _ hs
    | vec t | linked t => exact Rel.deSeq hn (ih t) (Nat.le_refl _) _
    | hset t | bset t =>
      simp only [Ty.narrow, NS.deRon, W32.deRon, collInsert_narrow]
      exact Rel.deSeq hn (ih t) (Nat.le_refl _) _
    | array t len =>
      exact Rel.bind (Rel.expectTok hn _ _) fun _ =>
        Rel.bind (Rel.repeatM (Rel.thenEat (ih t) (Rel.eatComma hn _ _)) _) fun _ =>
          Rel.bind (Rel.expectTok hn _ _) fun _ => Rel.pure _
    | pair a b =>
      have := Rel.deTuple (S := simLe) (f := fun u => NS.deRon env.narrow fl n u.narrow) (g := W32.deRon env fl n) (o := parenOpen (rNext fl)) (c := parenClose (rNext fl)) (e := eatCommaParen (rNext fl)) (ts := [a, b])
        (Rel.expectTok hn _ _) (Rel.expectTok hn _ _) (Rel.eatComma hn _ _) (fun _ => eatComma_no_panic rNext_no_panic) fun u _ => ih u
      exact this
    | triple a b c =>
      have := Rel.deTuple (S := simLe) (f := fun u => NS.deRon env.narrow fl n u.narrow) (g := W32.deRon env fl n) (o := parenOpen (rNext fl)) (c := parenClose (rNext fl)) (e := eatCommaParen (rNext fl)) (ts := [a, b, c])
        (Rel.expectTok hn _ _) (Rel.expectTok hn _ _) (Rel.eatComma hn _ _) (fun _ => eatComma_no_panic rNext_no_panic) fun u _ => ih u
      exact this
    | quad a b c d =>
      have := Rel.deTuple (S := simLe) (f := fun u => NS.deRon env.narrow fl n u.narrow) (g := W32.deRon env fl n) (o := parenOpen (rNext fl)) (c := parenClose (rNext fl)) (e := eatCommaParen (rNext fl)) (ts := [a, b, c, d])
        (Rel.expectTok hn _ _) (Rel.expectTok hn _ _) (Rel.eatComma hn _ _) (fun _ => eatComma_no_panic rNext_no_panic) fun u _ => ih u
      exact this
    | hmap k v | bmap k v =>
      simp only [Ty.narrow, NS.deRon, W32.deRon, collInsert_narrow]
      exact Rel.deMap hn (ih k) (ih v) (Nat.le_refl _) _
    | box t => exact Rel.bind (ih t) fun _ => Rel.pure _
    | named i =>
      have e : env.narrow.defs[i]? = env.defs[i]?.map Def.narrow := List.getElem?_map ..
      simp only [NS.deRon, W32.deRon, e, Ty.narrow]
      cases env.defs[i]? with
      | none => exact Rel.oof _
      | some d =>
        simp only [Option.map_some]
        cases d with
        | struct fs cd nul =>
          simp only [Def.narrow]
          rw [deRonNamed_narrow]
          exact Rel.bind (Rel.deRonNamed hn (Nat.le_refl _) cd fun f _ => ih _) fun _ => Rel.pure _
        | tuple ts tr =>
          simp only [Def.narrow]
          rw [deRonTys_narrow]
          exact Rel.bind (Rel.deRonTys hn fun u _ => ih u) fun _ => Rel.pure _
        | enum vars =>
          simp only [Def.narrow]
          rw [deRonEnum_narrow]
          refine Rel.deRonEnum hn fun v hv => ?_
          cases v.shape with
          | unit => exact Rel.pure _
          | tuple ts => exact Rel.deRonTys hn fun u _ => ih u
          | named fs => exact Rel.deRonNamed hn (Nat.le_refl _) false fun f _ => ih _
    | proxied i => exact Rel.oof _

end NS
