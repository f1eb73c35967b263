import Verif.Lemmas.CollSpec
import Verif.Lemmas.JsonMeans2
import Verif.Lemmas.RonRead
/-! `deserialize_ron` reads every text of a RON value as what it means: compound values and the theorem. -/
namespace NS
variable {fl : FloatOps} {env : Env}
namespace Ron

/-! ## Tuples and arrays -/

/-- One component of a tuple. -/
theorem thenEat_ok {rd : PM Val} {x v sep ys tr rest tail st} (hr : Reads fl rd x v)
    (hsep : sep = [.punct .comma] ∨ (sep = [] ∧ ys = [] ∧ tr = false))
    (h : RPos fl st (x ++ (sep ++ (commaLexemes tr ys ++ .punct .parenClose :: rest))) tail) :
    Yields (thenEat rd (eatCommaParen (rNext fl)) st) v fun s =>
      RPos fl s (commaLexemes tr ys ++ .punct .parenClose :: rest) tail := by
  refine Yields.bind (hr st _ tail (follow_sep hsep (.inr (.inr rfl))).fits h) fun s1 h1 => ?_
  exact Yields.bind (eat_sep h1 hsep (by decide)) fun s2 h2 => .pure h2

theorem commaAfter_ok {rd : PM Val} {x v sep ys tr rest tail st} (hr : Reads fl rd x v)
    (hsep : sep = [.punct .comma] ∨ (sep = [] ∧ ys = [] ∧ tr = false))
    (h : RPos fl st (x ++ (sep ++ (commaLexemes tr ys ++ .punct .parenClose :: rest))) tail) :
    Yields (commaAfter rd (eatCommaParen (rNext fl)) st) v fun s =>
      RPos fl s (commaLexemes tr ys ++ .punct .parenClose :: rest) tail := by
  obtain ⟨s1, e1, h1⟩ := hr st _ tail (follow_sep hsep (.inr (.inr rfl))).fits h
  unfold commaAfter
  rw [e1]
  exact Yields.bind (eat_sep h1 hsep (by decide)) fun s2 h2 => .pure h2

theorem deTysEat_ok {de : Ty → PM Val} {tr rest tail} (ps : List (Ty × RTree × Val))
    (hr : ∀ p ∈ ps, Reads fl (de p.1) p.2.1.lexemes p.2.2) (st : PSt)
    (h : RPos fl st (commaLexemes tr (ps.map fun p => p.2.1.lexemes) ++ .punct .parenClose :: rest) tail) :
    Yields (deTysEat de (eatCommaParen (rNext fl)) (ps.map (·.1)) st) (ps.map (·.2.2)) fun s =>
      RPos fl s (.punct .parenClose :: rest) tail := by
  induction ps generalizing st with
  | nil => exact .pure h
  | cons p ps ih =>
    obtain ⟨sep, e1, e2, _, _⟩ := commaLexemes_cons tr p.2.1.lexemes (ps.map fun p => p.2.1.lexemes) (.punct .parenClose :: rest)
    rw [List.map_cons, e1] at h
    refine Yields.bind (thenEat_ok (hr p (List.mem_cons_self ..)) e2 h) fun s1 h1 => ?_
    exact Yields.bind (ih (fun q hq => hr q (List.mem_cons_of_mem _ hq)) s1 h1) fun s2 h2 => .pure h2

theorem deTysComma_ok {de : Ty → PM Val} {tr rest tail} (ps : List (Ty × RTree × Val))
    (hr : ∀ p ∈ ps, Reads fl (de p.1) p.2.1.lexemes p.2.2) (st : PSt)
    (h : RPos fl st (commaLexemes tr (ps.map fun p => p.2.1.lexemes) ++ .punct .parenClose :: rest) tail) :
    Yields (deTysComma de (eatCommaParen (rNext fl)) (ps.map (·.1)) st) (ps.map (·.2.2)) fun s =>
      RPos fl s (.punct .parenClose :: rest) tail := by
  induction ps generalizing st with
  | nil => exact .pure h
  | cons p ps ih =>
    obtain ⟨sep, e1, e2, _, _⟩ := commaLexemes_cons tr p.2.1.lexemes (ps.map fun p => p.2.1.lexemes) (.punct .parenClose :: rest)
    rw [List.map_cons, e1] at h
    refine Yields.bind (commaAfter_ok (hr p (List.mem_cons_self ..)) e2 h) fun s1 h1 => ?_
    exact Yields.bind (ih (fun q hq => hr q (List.mem_cons_of_mem _ hq)) s1 h1) fun s2 h2 => .pure h2

theorem repeat_ok {rd : PM Val} {tr rest tail} (ps : List (RTree × Val))
    (hr : ∀ p ∈ ps, Reads fl rd p.1.lexemes p.2) (st : PSt)
    (h : RPos fl st (commaLexemes tr (ps.map fun p => p.1.lexemes) ++ .punct .parenClose :: rest) tail) :
    Yields (repeatM (thenEat rd (eatCommaParen (rNext fl))) ps.length st) (ps.map (·.2)) fun s =>
      RPos fl s (.punct .parenClose :: rest) tail := by
  induction ps generalizing st with
  | nil => exact .pure h
  | cons p ps ih =>
    obtain ⟨sep, e1, e2, _, _⟩ := commaLexemes_cons tr p.1.lexemes (ps.map fun p => p.1.lexemes) (.punct .parenClose :: rest)
    rw [List.map_cons, e1] at h
    refine Yields.bind (thenEat_ok (hr p (List.mem_cons_self ..)) e2 h) fun s1 h1 => ?_
    exact Yields.bind (ih (fun q hq => hr q (List.mem_cons_of_mem _ hq)) s1 h1) fun s2 h2 => .pure h2

theorem deTuple_reads {de : Ty → PM Val} {tr} (ps : List (Ty × RTree × Val)) {ts} (hts : ps.map (·.1) = ts)
    (hr : ∀ p ∈ ps, Reads fl (de p.1) p.2.1.lexemes p.2.2) :
    Reads fl (deTuple (parenOpen (rNext fl)) (parenClose (rNext fl)) (eatCommaParen (rNext fl)) de ts)
      (RTree.tuple (ps.map (·.2.1)) tr).lexemes (.seq (ps.map (·.2.2))) := by
  subst hts
  intro st rest tail hf h
  rw [RTree.lexemes_tuple] at h
  simp only [List.cons_append, List.append_assoc, List.nil_append, List.map_map] at h
  refine Yields.bind (expect h rfl (by simp)) fun s1 h1 => ?_
  refine Yields.bind (deTysComma_ok ps hr s1 h1) fun s2 h2 => ?_
  exact Yields.bind (expect h2 rfl hf.ne) fun s3 h3 => .pure h3

theorem deRonTys_reads {de : Ty → PM Val} {tr} (ps : List (Ty × RTree × Val)) {ts} (hts : ps.map (·.1) = ts)
    (hr : ∀ p ∈ ps, Reads fl (de p.1) p.2.1.lexemes p.2.2) :
    Reads fl (deRonTys (rNext fl) de ts) (RTree.tuple (ps.map (·.2.1)) tr).lexemes (ps.map (·.2.2)) := by
  subst hts
  intro st rest tail hf h
  rw [RTree.lexemes_tuple] at h
  simp only [List.cons_append, List.append_assoc, List.nil_append, List.map_map] at h
  refine Yields.bind (expect h rfl (by simp)) fun s1 h1 => ?_
  refine Yields.bind (deTysEat_ok ps hr s1 h1) fun s2 h2 => ?_
  exact Yields.bind (expect h2 rfl hf.ne) fun s3 h3 => .pure h3

/-! ## Structs -/

/-- What a member does to the slots of the fields. -/
def mstep (fs : List Field) (acc : List (Option Val)) (p : RMember) : List (Option Val) :=
  match findField fs p.1 with
  | some i => acc.set i (some p.2.2)
  | none => acc

theorem mstep_ne {fs acc p i} (h : findField fs p.1 ≠ some i) : (mstep fs acc p)[i]? = acc[i]? := by
  unfold mstep
  split
  · rename_i j hj
    rw [List.getElem?_set_ne]
    rintro rfl; exact h hj
  · rfl

theorem mstep_length (fs acc p) : (mstep fs acc p).length = acc.length := by
  unfold mstep; split <;> simp

theorem msteps_length (fs : List Field) (ps : List RMember) (acc) : (ps.foldl (mstep fs) acc).length = acc.length := by
  induction ps generalizing acc with
  | nil => rfl
  | cons p ps ih => rw [List.foldl_cons, ih, mstep_length]

theorem msteps_none {fs : List Field} {i} (ps : List RMember) (acc) (h : ∀ q ∈ ps, findField fs q.1 ≠ some i) :
    (ps.foldl (mstep fs) acc)[i]? = acc[i]? := by
  induction ps generalizing acc with
  | nil => rfl
  | cons p ps ih =>
    rw [List.foldl_cons, ih _ fun q hq => h q (List.mem_cons_of_mem _ hq), mstep_ne (h p (List.mem_cons_self ..))]

theorem msteps_last {fs : List Field} {i p} (a b : List RMember) (acc) (hi : i < acc.length) (hp : findField fs p.1 = some i)
    (h : ∀ q ∈ b, findField fs q.1 ≠ some i) : ((a ++ p :: b).foldl (mstep fs) acc)[i]? = some (some p.2.2) := by
  rw [List.foldl_append, List.foldl_cons, msteps_none b _ h]
  have hl := msteps_length fs a acc
  generalize a.foldl (mstep fs) acc = A at hl ⊢
  unfold mstep
  rw [hp]
  simp [hl, hi]

theorem rMember_ok {de : Ty → PM Val} {fs : List Field} {p : RMember} {acc st sep ys tr rest tail}
    (hd : DistinctNames fs) (hk : NotBool p.1 ∧ ∃ f ∈ fs, f.skip = false ∧ f.jsonName = p.1)
    (hr : ∀ f ∈ fs, f.skip = false → f.jsonName = p.1 → Reads fl (de f.ty) p.2.1.lexemes p.2.2)
    (hsep : sep = [.punct .comma] ∨ (sep = [] ∧ ys = [] ∧ tr = false))
    (h : RPos fl st (.word p.1 :: .punct .colon :: (p.2.1.lexemes ++ (sep ++ (commaLexemes tr ys ++ .punct .parenClose :: rest)))) tail) :
    Yields (rMember (rNext fl) de fs acc st) (mstep fs acc p) fun s =>
      RPos fl s (commaLexemes tr ys ++ .punct .parenClose :: rest) tail := by
  obtain ⟨hw, f, hf, hs, hn⟩ := hk
  obtain ⟨i, hi⟩ := List.getElem?_of_mem hf
  have hff : findField fs p.1 = some i := (findField_iff hd).2 ⟨f, hi, hs, hn⟩
  have hne : fs.isEmpty = false := by cases fs with
    | nil => cases hf
    | cons => rfl
  have hget : fs.getD i { name := [], ty := .unit } = f := by simp [List.getD, hi]
  have hib : st.identbuf = p.1 := At'.ib h p.1 rfl
  refine Yields.get ?_
  rw [hib]
  refine Yields.bind (a := mstep fs acc p) (Q := fun s => RPos fl s (sep ++ (commaLexemes tr ys ++ .punct .parenClose :: rest)) tail) ?_
    fun s1 h1 => Yields.bind (eat_sep h1 hsep (by decide)) fun s2 h2 => .pure h2
  unfold rMemberValue mstep
  rw [hne, hff]
  simp only [hget]
  refine Yields.bind (a := ()) (Q := fun s => RPos fl s (p.2.1.lexemes ++ (sep ++ (commaLexemes tr ys ++ .punct .parenClose :: rest))) tail) ?_ fun s1 h1 => ?_
  · refine Yields.bind (h.next' (by simp)) fun s1 h1 => ?_
    exact expect h1 rfl (start_ne _ _)
  · exact Yields.bind (hr f hf hs hn s1 _ tail (follow_sep hsep (.inr (.inr rfl))).fits h1) fun s2 h2 => .pure h2

theorem unwrap_fields {cd fs} {ps : List RMember} {vs} (h : FieldsGet cd fs ps vs) :
    decUnwrap cd fs (ps.foldl (mstep fs) (fs.map fun _ => none)) = .ok vs := by
  obtain ⟨hd, hk, hl, hv⟩ := h
  rw [unwrap_ok _ _ (by rw [msteps_length]; simp)]
  refine ⟨hl, fun i f o w hf ho hw => ?_⟩
  have hil : i < fs.length := by
    rcases Nat.lt_or_ge i fs.length with h | h
    · exact h
    · rw [List.getElem?_eq_none h] at hf; cases hf
  have hg := hv i f w hf hw
  unfold FieldGets at hg
  cases hs : f.skip with
  | true =>
    rw [if_pos hs] at hg
    exact .inr ⟨.inl rfl, .inl hs, hg⟩
  | false =>
    rw [if_neg (by simp [hs])] at hg
    rcases hg with ⟨a, p, b, rfl, hp, hb, rfl⟩ | ⟨hno, hab, rfl⟩
    · refine .inl ⟨rfl, ?_⟩
      rw [msteps_last a b _ (by simpa using hil) ((findField_iff hd).2 ⟨f, hf, hs, hp.symm⟩)] at ho
      · injection ho with ho; exact ho.symm
      · intro q hq e
        obtain ⟨f', hf', _, hn⟩ := (findField_iff hd).1 e
        rw [hf] at hf'; injection hf' with hf'; subst hf'
        exact hb q hq hn.symm
    · refine .inr ⟨.inr ?_, hab, rfl⟩
      rw [msteps_none ps] at ho
      · simp [hil] at ho; exact ho.symm
      · intro q hq e
        obtain ⟨f', hf', _, hn⟩ := (findField_iff hd).1 e
        rw [hf] at hf'; injection hf' with hf'; subst hf'
        exact hno q hq hn.symm

theorem deRonNamed_reads {de : Ty → PM Val} {cd fs vs tr} {n : Nat} (ps : List RMember) (hg : FieldsGet cd fs ps vs)
    (hr : ∀ p ∈ ps, ∀ f ∈ fs, f.skip = false → f.jsonName = p.1 → Reads fl (de f.ty) p.2.1.lexemes p.2.2)
    (hn : ps.length < n) :
    Reads fl (deRonNamed (rNext fl) n de cd fs) (RTree.fields (ps.map fun p => (p.1, p.2.1)) tr).lexemes vs := by
  intro st rest tail hf h
  rw [RTree.lexemes_fields] at h
  simp only [List.cons_append, List.append_assoc, List.nil_append, List.map_map] at h
  refine Yields.bind (expect h rfl (by simp)) fun s1 h1 => ?_
  refine Yields.bind (whileIs_yields
    (lx := (fun m : List Char × RTree => .word m.1 :: .punct .colon :: m.2.lexemes) ∘ fun p : RMember => (p.1, p.2.1))
    (step := mstep fs) ps ?_ ?_ n hn _ tr s1 h1) ?_
  · intro p hp
    have := (hg.2.1 p hp).1
    exact ⟨_, _, rfl, by simp [rtok, this.1, this.2]⟩
  · intro p hp acc s sep ys tr' hsep hpos
    exact rMember_ok hg.1 (hg.2.1 p hp) (hr p hp) hsep (by simpa using hpos)
  · intro s hs
    refine Yields.bind (expect hs rfl hf.ne) fun s2 h2 => ?_
    have := unwrapFields_agree cd fs (ps.foldl (mstep fs) (fs.map fun _ => none)) s2
    rw [unwrap_fields hg] at this
    obtain ⟨s3, e3, rfl⟩ := this
    exact ⟨_, e3, h2⟩

/-! ## Enums -/

theorem findVariant_called {vars : List Variant} {w j var} (h : VariantCalled vars w j var) :
    vars.findIdx? (fun v => v.name == w) = some j := by
  obtain ⟨h1, h2, _, h3⟩ := h
  have hj : j < vars.length := by
    rcases Nat.lt_or_ge j vars.length with h | h
    · exact h
    · rw [List.getElem?_eq_none h] at h1; cases h1
  rw [List.findIdx?_eq_some_iff_getElem]
  refine ⟨hj, ?_, fun i hi => ?_⟩
  · rw [List.getElem?_eq_getElem hj] at h1; injection h1 with h1
    simp [h1, h2]
  · have := h3 i hi _ (List.getElem?_eq_getElem (by omega))
    simpa using this

theorem deRonEnum_ok {n : Nat} {de : Ty → PM Val} {vars w j var vs} {st l ls rest tail}
    (hc : VariantCalled vars w j var) (hl : l.ib = none)
    (h : RPos fl st (.word w :: l :: ls) tail)
    (hsh : ∀ s, RPos fl s (l :: ls) tail → Yields (deRonShape (rNext fl) n de var.shape s) vs fun s => RPos fl s rest tail) :
    Yields (deRonEnum (rNext fl) n de vars st) (.variant j vs) fun s => RPos fl s rest tail := by
  refine Yields.bind (ident_ok h hc.2.2.1 hl) fun s1 ⟨h1, hib⟩ => ?_
  refine Yields.get ?_
  rw [hib, findVariant_called hc]
  have hget : vars.getD j { name := [], shape := .unit } = var := by simp [List.getD, hc.1]
  simp only [hget]
  exact Yields.bind (hsh s1 h1) fun s2 h2 => .pure h2

/-! ## The whole reader -/

theorem atNone_false {st x rest tail} (hx : NotNone x) (h : RPos fl st (x.lexemes ++ rest) tail) : atNone st = false := by
  have key : ∀ w r, w ≠ noneText → RPos fl st (.word w :: r) tail → atNone st = false := by
    intro w r hw h
    have hib : st.identbuf = w := At'.ib h w rfl
    simp [atNone, hib, hw]
  have other : ∀ l r, rtok l ≠ .ident → RPos fl st (l :: r) tail → atNone st = false := by
    intro l r hl h
    have ht : st.tok = rtok l := h.tok
    simp [atNone, ht, hl]
  cases x with
  | word w => rw [RTree.lexemes] at h; exact key w _ hx h
  | ctor w b => rw [RTree.lexemes_ctor] at h; exact key w _ hx h
  | num t => rw [RTree.lexemes] at h; exact other _ _ (by cases t <;> simp [rtok, Num.tok]) h
  | str t => rw [RTree.lexemes] at h; exact other _ _ (by simp [rtok]) h
  | list xs tr => rw [RTree.lexemes_list] at h; exact other _ _ (by simp [rtok]) h
  | tuple xs tr => rw [RTree.lexemes_tuple] at h; exact other _ _ (by simp [rtok]) h
  | fields xs tr => rw [RTree.lexemes_fields] at h; exact other _ _ (by simp [rtok]) h
  | map xs tr => rw [RTree.lexemes_map] at h; exact other _ _ (by simp [rtok]) h

theorem atNone_true {st rest tail} (h : RPos fl st (.word ['N', 'o', 'n', 'e'] :: rest) tail) : atNone st = true := by
  have ht : st.tok = .ident := h.tok
  have hib : st.identbuf = ['N', 'o', 'n', 'e'] := At'.ib h _ rfl
  simp [atNone, ht, hib, noneText]

theorem Ev.succ {P : Nat → Prop} (h : Ev fun n => P (n + 1)) : Ev P := by
  obtain ⟨a, h⟩ := h
  refine ⟨a + 1, fun n hn => ?_⟩
  obtain ⟨m, rfl⟩ : ∃ m, n = m + 1 := ⟨n - 1, by omega⟩
  exact h m (by omega)

theorem Ev.big (k : Nat) : Ev fun n => k < n := ⟨k + 1, fun n hn => by omega⟩

theorem reads_str {s} : Ev fun n => Reads fl (deRon env fl n .str) (RTree.str s).lexemes (.str s) := by
  refine Ev.succ (.of fun n => ?_)
  intro st rest tail hf h
  rw [show (RTree.str s).lexemes = [.str s] by rw [RTree.lexemes]] at h
  exact Yields.bind (deStr_ok h hf.ne) fun s2 h2 => .pure h2

theorem reads_none {t} : Ev fun n => Reads fl (deRon env fl n (.option t)) (RTree.word ['N', 'o', 'n', 'e']).lexemes .none := by
  refine Ev.succ (.of fun n => ?_)
  intro st rest tail hf h
  rw [show (RTree.word ['N', 'o', 'n', 'e']).lexemes = [.word ['N', 'o', 'n', 'e']] by rw [RTree.lexemes]] at h
  refine Yields.get ?_
  rw [if_pos (atNone_true h)]
  exact Yields.bind (h.next' hf.ne) fun s2 h2 => .pure h2

theorem deInt_wrap_ok {st k i ls tail} {n : Nat} (h : RPos fl st (.num (.nat n) :: ls) tail) (hne : ls ≠ []) (hk : k.textual = true)
    (hs : k.signed = true) (h1 : 2 ^ 63 ≤ n) (h2 : n < 2 ^ 64) (hi : k.inRange i)
    (hm : i % 2 ^ (8 * k.bytes) = (n : Int) % 2 ^ (8 * k.bytes)) :
    Yields (deInt (rNext fl) k st) (.int i) fun s => RPos fl s ls tail := by
  have htok : st.tok = .u64 n := h.tok
  have hnx := h.next' hne
  have hc := (decInt_wrap k hk hs n i).2 ⟨hi, hm⟩
  have h0 : (0 : Int) ≤ k.hi := by cases k <;> decide
  have hu : u64AsI64 n = (n : Int) - 2 ^ 64 := by unfold u64AsI64; rw [if_neg (by omega)]
  unfold deInt
  rw [if_neg (by simp [hk]), if_pos hs]
  refine Yields.bind (a := (n : Int) - 2 ^ 64) (Q := fun s => s = st) ⟨st, ?_, rfl⟩ fun s hs => ?_
  · show ((match st.tok with
      | .i64 v => if v < k.lo then errRange (showInt v ++ '<' :: showInt k.lo) else Pure.pure v
      | .u64 v =>
        if u64AsI64 v > k.hi then errRange (showNat v ++ '>' :: showInt k.hi) else Pure.pure (u64AsI64 v)
      | _ => errToken "signed integer") : PM Int) st = _
    rw [htok]
    simp only [hu]
    rw [if_neg (by omega)]; rfl
  · subst hs
    refine Yields.bind hnx fun s hs => ?_
    rw [← hc]; exact .pure hs

/-- Booleans and integers: no keys are compared. -/
theorem reads_scalar {t x v} (hty : t = .bool ∨ ∃ k, t = .int k) (h : RonMeans env fl t x v) :
    Ev fun n => Reads fl (deRon env fl n t) x.lexemes v := by
  have word1 : ∀ w, (RTree.word w).lexemes = [.word w] := fun s => by rw [RTree.lexemes]
  have num1 : ∀ w, (RTree.num w).lexemes = [.num w] := fun s => by rw [RTree.lexemes]
  cases h with
  | true =>
    refine Ev.succ (.of fun n => ?_)
    intro st rest tail hf h
    rw [word1] at h
    refine Yields.get ?_
    rw [show st.tok = .bool Bool.true from h.tok]
    exact Yields.bind (h.next' hf.ne) fun s2 h2 => .pure h2
  | false =>
    refine Ev.succ (.of fun n => ?_)
    intro st rest tail hf h
    rw [word1] at h
    refine Yields.get ?_
    rw [show st.tok = .bool Bool.false from h.tok]
    exact Yields.bind (h.next' hf.ne) fun s2 h2 => .pure h2
  | @boolNum k =>
    refine Ev.succ (.of fun n => ?_)
    intro st rest tail hf h
    rw [num1] at h
    refine Yields.get ?_
    rw [show st.tok = .u64 k from h.tok]
    exact Yields.bind (h.next' hf.ne) fun s2 h2 => .pure h2
  | int hk ht hi hu =>
    refine Ev.succ (.of fun n => ?_)
    intro st rest tail hf h
    rw [num1] at h
    exact deInt_ok h hf.ne hk ht hi hu
  | intWrap hk hs h1 h2 hi hm =>
    refine Ev.succ (.of fun n => ?_)
    intro st rest tail hf h
    rw [num1] at h
    exact deInt_wrap_ok h hf.ne hk hs h1 h2 hi hm
  | _ => simp at hty

/-- Reading the lexemes of a value gives what it means. -/
theorem reads (hkeys : LawfulKeys env) {t x v} (h : RonMeans env fl t x v) : Ev fun n => Reads fl (deRon env fl n t) x.lexemes v := by
  have foldSnoc : ∀ (l acc : List Val), l.foldl (fun acc v => acc ++ [v]) acc = acc ++ l := by
    intro l
    induction l with
    | nil => intro acc; simp
    | cons a l ih => intro acc; simp [ih]
  have word1 : ∀ w, (RTree.word w).lexemes = [.word w] := fun s => by rw [RTree.lexemes]
  have num1 : ∀ w, (RTree.num w).lexemes = [.num w] := fun s => by rw [RTree.lexemes]
  induction h with
  | unit =>
    refine Ev.succ (.of fun n => ?_)
    intro st rest tail hf h
    rw [RTree.lexemes_tuple] at h
    refine Yields.bind (expect h rfl (by simp)) fun s1 h1 => ?_
    exact Yields.bind (expect h1 rfl hf.ne) fun s2 h2 => .pure h2
  | true => exact reads_scalar (.inl rfl) .true
  | false => exact reads_scalar (.inl rfl) .false
  | boolNum => exact reads_scalar (.inl rfl) .boolNum
  | int hk ht hi hu => exact reads_scalar (.inr ⟨_, rfl⟩) (.int hk ht hi hu)
  | intWrap hk hs h1 h2 hi hm => exact reads_scalar (.inr ⟨_, rfl⟩) (.intWrap hk hs h1 h2 hi hm)
  | f32 =>
    refine Ev.succ (.of fun n => ?_)
    intro st rest tail hf h
    rw [num1] at h
    refine Yields.bind ⟨st, asF64_ok h, rfl⟩ fun s hs => ?_
    subst hs
    exact Yields.bind (h.next' hf.ne) fun s2 h2 => .pure h2
  | f64 =>
    refine Ev.succ (.of fun n => ?_)
    intro st rest tail hf h
    rw [num1] at h
    refine Yields.bind ⟨st, asF64_ok h, rfl⟩ fun s hs => ?_
    subst hs
    exact Yields.bind (h.next' hf.ne) fun s2 h2 => .pure h2
  | str => exact reads_str
  | dur hm hn hs =>
    exact Ev.succ ((Ev.big 3).mono fun n hb => deDur_ok hm hn hs (by omega))
  | epoch =>
    refine Ev.succ (.of fun n => ?_)
    intro st rest tail hf h
    rw [word1] at h
    refine Yields.get ?_
    rw [if_pos (atNone_true h)]
    exact Yields.bind (h.next' hf.ne) fun s2 h2 => ⟨s2, rfl, h2⟩
  | @time ms tr s ns hm hn hs =>
    refine Ev.succ ((Ev.big 3).mono fun n hb => ?_)
    intro st rest tail hf h
    refine Yields.get ?_
    rw [if_neg (by rw [atNone_false (by simp [NotNone]) h]; simp)]
    refine Yields.bind (deDur_ok hm hn (by simp [u64Max]; omega) (by omega) st rest tail hf h) fun s2 h2 => ⟨s2, ?_, h2⟩
    show epochAt (.dur (s + ns / 1000000000) (ns % 1000000000)) s2 = _
    unfold epochAt
    simp only
    rw [if_pos hs]
    simp
  | none => exact reads_none
  | some hx _ ih =>
    refine Ev.succ (ih.mono fun n hr => ?_)
    intro st rest tail hf h
    refine Yields.get ?_
    rw [if_neg (by rw [atNone_false hx h]; simp)]
    exact Yields.bind (hr st rest tail hf h) fun s2 h2 => .pure h2
  | vec ps _ ih =>
    refine Ev.succ (((Ev.list ps ih).and (Ev.big ps.length)).mono fun n hr => ?_)
    have := deSeq_reads (add := fun acc v => acc ++ [v]) ps hr.1 hr.2 (trail := by assumption)
    rw [foldSnoc] at this
    exact this
  | linked ps _ ih =>
    refine Ev.succ (((Ev.list ps ih).and (Ev.big ps.length)).mono fun n hr => ?_)
    have := deSeq_reads (add := fun acc v => acc ++ [v]) ps hr.1 hr.2 (trail := by assumption)
    rw [foldSnoc] at this
    exact this
  | hset ps _ ih =>
    rw [← hset_fold_firsts hkeys]
    exact Ev.succ (((Ev.list ps ih).and (Ev.big ps.length)).mono fun n hr => deSeq_reads ps hr.1 hr.2)
  | bset ps _ hr ih =>
    rw [← bset_fold_unique hkeys hr]
    exact Ev.succ (((Ev.list ps ih).and (Ev.big ps.length)).mono fun n hr => deSeq_reads ps hr.1 hr.2)
  | array ps hl _ ih =>
    subst hl
    refine Ev.succ ((Ev.list ps ih).mono fun n hr => ?_)
    intro st rest tail hf h
    rw [RTree.lexemes_tuple] at h
    simp only [List.cons_append, List.append_assoc, List.nil_append, List.map_map] at h
    refine Yields.bind (expect h rfl (by simp)) fun s1 h1 => ?_
    refine Yields.bind (repeat_ok ps hr s1 h1) fun s2 h2 => ?_
    exact Yields.bind (expect h2 rfl hf.ne) fun s3 h3 => .pure h3
  | pair ps hts _ ih =>
    exact Ev.succ ((Ev.list ps ih).mono fun n hr => deTuple_reads ps hts hr)
  | triple ps hts _ ih =>
    exact Ev.succ ((Ev.list ps ih).mono fun n hr => deTuple_reads ps hts hr)
  | quad ps hts _ ih =>
    exact Ev.succ ((Ev.list ps ih).mono fun n hr => deTuple_reads ps hts hr)
  | hmap ps _ _ hlw hr ihk ihv =>
    have hE : AllEntries (ps.map fun p => Val.entry p.1.2 p.2.2) := by
      intro w hw
      obtain ⟨p, _, rfl⟩ := List.mem_map.1 hw
      exact ⟨_, _, rfl⟩
    rw [← hmap_fold_unique hkeys hE hlw (by rw [hr, List.map_map]; rfl)]
    exact Ev.succ ((((Ev.list ps ihk).and (Ev.list ps ihv)).and (Ev.big ps.length)).mono fun n hr =>
      deMap_reads ps hr.1.1 hr.1.2 hr.2)
  | bmap ps _ _ hlw hr ihk ihv =>
    have hE : AllEntries (ps.map fun p => Val.entry p.1.2 p.2.2) := by
      intro w hw
      obtain ⟨p, _, rfl⟩ := List.mem_map.1 hw
      exact ⟨_, _, rfl⟩
    rw [← bmap_fold_unique hkeys hE hlw hr]
    exact Ev.succ ((((Ev.list ps ihk).and (Ev.list ps ihv)).and (Ev.big ps.length)).mono fun n hr =>
      deMap_reads ps hr.1.1 hr.1.2 hr.2)
  | box _ ih =>
    refine Ev.succ (ih.mono fun n hr => ?_)
    intro st rest tail hf h
    exact Yields.bind (hr st rest tail hf h) fun s2 h2 => .pure h2
  | @struct i fs cd nul vs tr ps hd hg _ ih =>
    have ih' : Ev fun n => ∀ p ∈ ps, ∀ f ∈ fs, f.skip = Bool.false → f.jsonName = p.1 → Reads fl (deRon env fl n f.ty) p.2.1.lexemes p.2.2 := by
      refine Ev.list ps fun p hp => Ev.list fs fun f hf => ?_
      by_cases h : f.skip = Bool.false ∧ f.jsonName = p.1
      · exact (ih p hp f hf h.1 h.2).mono fun n hr _ _ => hr
      · exact .of fun n h1 h2 => absurd ⟨h1, h2⟩ h
    refine Ev.succ ((ih'.and (Ev.big ps.length)).mono fun n hr => ?_)
    intro st rest tail hf h
    show Yields (deRon env fl (n + 1) (.named i) st) _ _
    rw [deRon]
    simp only [hd]
    exact Yields.bind (deRonNamed_reads ps hg hr.1 hr.2 st rest tail hf h) fun s2 h2 => .pure h2
  | @tupleStruct i trans tr ps hd _ ih =>
    refine Ev.succ ((Ev.list ps ih).mono fun n hr => ?_)
    intro st rest tail hf h
    rw [deRon]
    simp only [hd]
    exact Yields.bind (deRonTys_reads ps rfl hr st rest tail hf h) fun s2 h2 => .pure h2
  | @variant i vars w j var hd hc hs =>
    refine Ev.succ (.of fun n => ?_)
    intro st rest tail hf h
    rw [word1] at h
    rw [deRon]
    simp only [hd]
    obtain ⟨c, r, hcr⟩ := List.exists_cons_of_ne_nil hf.ne
    have hib := hf.word w (word1 w) c r hcr
    subst hcr
    refine deRonEnum_ok hc hib h fun s hs' => ?_
    rw [hs]
    exact .pure hs'
  | @tupleVariant i vars w j var tr ps hd hc hs _ ih =>
    refine Ev.succ ((Ev.list ps ih).mono fun n hr => ?_)
    intro st rest tail hf h
    rw [deRon]
    simp only [hd]
    rw [RTree.lexemes_ctor, RTree.lexemes_tuple] at h
    refine deRonEnum_ok hc (l := .punct .parenOpen) rfl h fun s hs' => ?_
    rw [hs]
    refine deRonTys_reads (tr := tr) ps rfl hr s rest tail (by rw [RTree.lexemes_tuple]; exact .punct hf.ne) ?_
    rw [RTree.lexemes_tuple]; exact hs'
  | @structVariant i vars w j var fs vs tr ps hd hc hs hg _ ih =>
    have ih' : Ev fun n => ∀ p ∈ ps, ∀ f ∈ fs, f.skip = Bool.false → f.jsonName = p.1 → Reads fl (deRon env fl n f.ty) p.2.1.lexemes p.2.2 := by
      refine Ev.list ps fun p hp => Ev.list fs fun f hf => ?_
      by_cases h : f.skip = Bool.false ∧ f.jsonName = p.1
      · exact (ih p hp f hf h.1 h.2).mono fun n hr _ _ => hr
      · exact .of fun n h1 h2 => absurd ⟨h1, h2⟩ h
    refine Ev.succ ((ih'.and (Ev.big ps.length)).mono fun n hr => ?_)
    intro st rest tail hf h
    rw [deRon]
    simp only [hd]
    rw [RTree.lexemes_ctor, RTree.lexemes_fields] at h
    refine deRonEnum_ok hc (l := .punct .parenOpen) rfl h fun s hs' => ?_
    rw [hs]
    refine deRonNamed_reads (tr := tr) ps hg hr.1 hr.2 s rest tail (by rw [RTree.lexemes_fields]; exact .punct hf.ne) ?_
    rw [RTree.lexemes_fields]; exact hs'

end Ron

/-- Every text of a RON value is read as what it means. -/
theorem ron_reads_of {t x v txt} (hx : RText fl x txt) (h : NS.Ev fun n => Ron.Reads fl (deRon env fl n t) x.lexemes v) :
    Decodes (fun n => deserializeRon env fl n t txt) v := by
  obtain ⟨n0, hr⟩ := h
  refine ⟨n0, fun n hn => ?_⟩
  have hs := RFull.stream hx
  obtain ⟨l, ls, el, _⟩ := Ron.start x
  obtain ⟨s1, e1, h1⟩ : ∃ s1, rNext fl (initSt rcol txt) = .ok () s1 ∧ RPos fl s1 (x.lexemes ++ [.eof]) [] := by
    rw [el] at hs ⊢
    exact hs.start (by cases txt <;> simp [initSt, Cur.next]; split <;> rfl)
  obtain ⟨s2, e2, _⟩ := hr n hn s1 [.eof] [] (Ron.Follow.fits ⟨_, _, rfl, by simp [Ron.IsFollow]⟩) h1
  refine ⟨s2, ?_⟩
  show (rNext fl >>= fun _ => deRon env fl n t : PM Val) (initSt rcol txt) = _
  rw [M.bind_ok e1]; exact e2

theorem ron_reads (hkeys : LawfulKeys env) {t x v txt} (hx : RText fl x txt) (h : RonMeans env fl t x v) :
    Decodes (fun n => deserializeRon env fl n t txt) v := ron_reads_of hx (Ron.reads hkeys h)

theorem ron_reads_scalar {t x v txt} (ht : t = .bool ∨ ∃ k, t = .int k) (hx : RText fl x txt) (h : RonMeans env fl t x v) :
    Decodes (fun n => deserializeRon env fl n t txt) v := ron_reads_of hx (Ron.reads_scalar ht h)

end NS
