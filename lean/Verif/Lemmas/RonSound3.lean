import Verif.Lemmas.RonSound2
import Verif.Spec.RonWhole
/-! What the RON reader accepts: enums and the whole reader. -/
namespace NS
variable {fl : FloatOps} {env : Env}

theorem findVariant_inv {vars : List Variant} {w j} (h : vars.findIdx? (fun v => v.name == w) = some j) :
    ∃ var, vars[j]? = some var ∧ var.name = w ∧ (∀ i < j, ∀ u, vars[i]? = some u → u.name ≠ w) ∧
      vars.getD j { name := [], shape := .unit } = var := by
  rw [List.findIdx?_eq_some_iff_getElem] at h
  obtain ⟨hj, h1, h2⟩ := h
  refine ⟨vars[j], List.getElem?_eq_getElem hj, by simpa using h1, fun i hi u hu => ?_, by simp [List.getD, hj]⟩
  have := h2 i hi
  rw [List.getElem?_eq_getElem (by omega)] at hu
  injection hu with hu
  rw [hu] at this
  simpa using this

theorem Tr.cast {tk Lx s ls ls' s'} (h : Tr tk Lx s ls s') (e : ls = ls') : Tr tk Lx s ls' s' := e ▸ h

variable (hfl : FloatLaws fl)
include hfl

theorem deRonEnum_inv {de : Ty → PM Val} {vars : List Variant} {i n s v s'} (hdef : env.defs[i]? = some (.enum vars))
    (hd : DistinctProg env)
    (hde : ∀ t, RGot env fl (de t) t) (hl : RLexed fl s) (e : deRonEnum (rNext fl) n de vars s = .ok v s') :
    NotSep s.tok ∧ RLexed fl s' ∧ ((∃ ls, RP env fl (.named i) ls v ∧ RTr fl s ls s') ∨ (RQ fl s v s' ∧ NotSep s'.tok)) := by
  have hn := rLexSound hfl
  unfold deRonEnum at e
  obtain ⟨_, s1, e1, e⟩ := M.bind_eq_ok.1 e
  by_cases ht : s.tok = .ident
  rotate_left
  · obtain ⟨e', h'⟩ := expectTok_err (nx := rNext fl) (what := "Identifier") ht
    rw [h'] at e1; cases e1
  rw [expectTok_ok ht] at e1
  obtain ⟨hw, hnb⟩ := AtL.ident hl ht
  have hns : NotSep s.tok := notSep_word hw
  obtain ⟨l1, h1, t1, _, hib⟩ := hn.step hw rfl rfl e1
  refine ⟨hns, ?_⟩
  replace e : (match vars.findIdx? (fun v => v.name == s1.identbuf) with
    | some j => (deRonShape (rNext fl) n de (vars.getD j { name := [], shape := .unit }).shape >>= fun vs => (pure (.variant j vs) : PM Val))
    | none => errEnum s1.identbuf : PM Val) s1 = .ok v s' := e
  cases hf : vars.findIdx? (fun v => v.name == s1.identbuf) with
  | none => rw [hf] at e; cases e
  | some j =>
    rw [hf] at e
    obtain ⟨var, hj, hname, hfirst, hget⟩ := findVariant_inv hf
    simp only [hget] at e
    obtain ⟨vs, s2, e2, e⟩ := M.bind_eq_ok.1 e
    cases e
    have hvf := hd.varFields i vars hdef var (List.mem_of_getElem? hj)
    cases hib1 : l1.ib with
    | none =>
      have hib := hib hib1
      rw [hib] at hname hfirst
      have hc : VariantCalled vars s.identbuf j var := ⟨hj, hname, hnb, hfirst⟩
      cases hsh : var.shape with
      | unit =>
        rw [hsh] at e2
        cases e2
        exact ⟨⟨l1, h1⟩, .inl ⟨_, ⟨.word s.identbuf, rfl, .variant hdef hc hsh⟩, t1.cast (by rw [RTree.lexemes])⟩⟩
      | tuple ts =>
        rw [hsh] at e2
        obtain ⟨_, l2, qs, tr, q1, q2, rfl, t2⟩ := deRonTys_inv hfl ts hde ⟨l1, h1⟩ e2
        refine ⟨l2, .inl ⟨_, ⟨.ctor s.identbuf (.tuple (qs.map (·.2.1)) tr), rfl, .tupleVariant qs hdef hc (by rw [hsh, q1]) q2⟩, ?_⟩⟩
        exact (t1.append t2).cast (by rw [RTree.lexemes_ctor]; rfl)
      | named fs =>
        rw [hsh] at e2
        obtain ⟨_, l2, ps, tr, p1, p2, t2⟩ := deRonNamed_inv hfl (hvf fs hsh) hde ⟨l1, h1⟩ e2
        refine ⟨l2, .inl ⟨_, ⟨.ctor s.identbuf (.fields (ps.map fun p => (p.1, p.2.1)) tr), rfl, .structVariant ps hdef hc hsh p1 p2⟩, ?_⟩⟩
        exact (t1.append t2).cast (by rw [RTree.lexemes_ctor]; rfl)
    | some w' =>
      have hl1 : l1 = .word w' := by
        cases l1 <;> simp [Lexeme.ib] at hib1
        rw [hib1]
      subst hl1
      have hne : s1.tok ≠ .parenOpen := by
        rw [h1.tok]
        rcases rtok_word w' with ⟨e, _⟩ | ⟨b, e, _⟩ <;> rw [e] <;> simp
      cases hsh : var.shape with
      | unit =>
        rw [hsh] at e2
        cases e2
        exact ⟨⟨_, h1⟩, .inr ⟨⟨_, _, hw, h1, t1⟩, notSep_word h1⟩⟩
      | tuple ts =>
        rw [hsh] at e2
        obtain ⟨h, _⟩ := deRonTys_inv hfl ts hde ⟨_, h1⟩ e2
        exact absurd h hne
      | named fs =>
        rw [hsh] at e2
        obtain ⟨h, _⟩ := deRonNamed_inv hfl (hvf fs hsh) hde ⟨_, h1⟩ e2
        exact absurd h hne

omit hfl in
theorem atNone_iff {s} (h : RLexed fl s) : atNone s = true ↔ AtL rtok (RLex fl) s (.word ['N', 'o', 'n', 'e']) := by
  constructor
  · intro e
    simp only [atNone, Bool.and_eq_true, beq_iff_eq] at e
    obtain ⟨h1, _⟩ := AtL.ident h e.1
    rw [e.2] at h1
    exact h1
  · intro e
    have h1 : s.tok = .ident := e.tok
    have h2 := e.ib _ rfl
    simp [atNone, h1, h2, noneText]

omit hfl in
theorem Tr.head {s l ls s'} (h : RTr fl s (l :: ls) s') : AtL rtok (RLex fl) s l := by
  cases h; assumption

omit hfl in
theorem durMembers_lexemes {bs : List (Nat ⊕ Nat)} {a b : Nat} (tr : Bool)
    (h : bs = [.inl a, .inr b] ∨ bs = [.inr b, .inl a] ∨ (bs = [.inl a] ∧ b = 0)) :
    ∃ ms, DurMembers ms a b ∧
      (RTree.map ms tr).lexemes = .punct .curlyOpen :: (commaLexemes tr (bs.map durLex) ++ [.punct .curlyClose]) := by
  have str1 : ∀ w, (RTree.str w).lexemes = [.str w] := fun s => by rw [RTree.lexemes]
  have num1 : ∀ w, (RTree.num w).lexemes = [.num w] := fun s => by rw [RTree.lexemes]
  rcases h with rfl | rfl | ⟨rfl, rfl⟩
  · refine ⟨_, .inl rfl, ?_⟩
    rw [RTree.lexemes_map]; simp [str1, num1, durLex]
  · refine ⟨_, .inr (.inl rfl), ?_⟩
    rw [RTree.lexemes_map]; simp [str1, num1, durLex]
  · refine ⟨_, .inr (.inr ⟨rfl, rfl⟩), ?_⟩
    rw [RTree.lexemes_map]; simp [str1, num1, durLex]

theorem deDur_inv {n s v s'} (hl : RLexed fl s) (e : deDur (rNext fl) n s = .ok v s') :
    NotSep s.tok ∧ RLexed fl s' ∧ ∃ ms tr a b, DurMembers ms a b ∧ b ≤ 1000000000 ∧ a + b / 1000000000 ≤ u64Max ∧
      v = .dur (a + b / 1000000000) (b % 1000000000) ∧ RTr fl s (RTree.map ms tr).lexemes s' := by
  obtain ⟨h0, l, bs, tr, a, b, h1, h2, h3, h4, t⟩ := (rLexSound hfl).deDur hl e
  obtain ⟨ms, m1, m2⟩ := durMembers_lexemes tr h1
  exact ⟨by rw [h0]; simp [NotSep], l, ms, tr, a, b, m1, h2, h3, h4, t.cast m2.symm⟩

/-- Everything the reader accepts is a value followed by a lexeme, or two words. -/
theorem deRon_inv (hk : LawfulKeys env) (hd : DistinctProg env) (n : Nat) : ∀ t, RGot env fl (deRon env fl n t) t := by
  have hn := rLexSound hfl
  have foldSnoc : ∀ (l acc : List Val), l.foldl (fun acc v => acc ++ [v]) acc = acc ++ l := by
    intro l
    induction l with
    | nil => intro acc; simp
    | cons a l ih => intro acc; simp [ih]
  have word1 : ∀ w, (RTree.word w).lexemes = [.word w] := fun s => by rw [RTree.lexemes]
  have num1 : ∀ w, (RTree.num w).lexemes = [.num w] := fun s => by rw [RTree.lexemes]
  have str1 : ∀ w, (RTree.str w).lexemes = [.str w] := fun s => by rw [RTree.lexemes]
  induction n with
  | zero => intro t s v s' _ e; cases e
  | succ n ih =>
    intro t s v s' hl e
    have good : ∀ {x}, NotSep s.tok → RLexed fl s' → RonMeans env fl t x v → RTr fl s x.lexemes s' →
        NotSep s.tok ∧ RLexed fl s' ∧ ((∃ ls, RP env fl t ls v ∧ RTr fl s ls s') ∨ (RQ fl s v s' ∧ NotSep s'.tok)) :=
      fun h1 h2 h3 h4 => ⟨h1, h2, .inl ⟨_, ⟨_, rfl, h3⟩, h4⟩⟩
    cases t with
    | unit =>
      obtain ⟨_, s1, e1, e⟩ := M.bind_eq_ok.1 (show (parenOpen (rNext fl) >>= fun _ => parenClose (rNext fl) >>= fun _ => (pure .unit : PM Val)) s = _ from e)
      obtain ⟨_, s2, e2, e⟩ := M.bind_eq_ok.1 e
      cases e
      obtain ⟨h0, l1, t1⟩ := hn.expect hl e1 (by simp)
      obtain ⟨_, l2, t2⟩ := hn.expect l1 e2 (by simp)
      refine good (by rw [h0]; simp [NotSep]) l2 (.unit (tr := false)) ((t1.append t2).cast ?_)
      rw [RTree.lexemes_tuple]; rfl
    | bool =>
      replace e : (match s.tok with
        | .bool b => rNext fl >>= fun _ => (pure (.bool b) : PM Val)
        | .u64 v => rNext fl >>= fun _ => (pure (.bool (v != 0)) : PM Val)
        | _ => errToken "boolean" : PM Val) s = .ok v s' := e
      cases ht : s.tok with
      | bool b =>
        rw [ht] at e
        obtain ⟨_, s1, e1, e⟩ := M.bind_eq_ok.1 e
        cases e
        obtain ⟨l1, _, _, _, h1⟩ := hn.number hl rfl rfl e1
        rw [← ht]
        cases b with
        | true => exact good (by rw [ht]; simp [NotSep]) l1 .true ((h1 ht).cast (by rw [word1]; rfl))
        | false => exact good (by rw [ht]; simp [NotSep]) l1 .false ((h1 ht).cast (by rw [word1]; rfl))
      | u64 b =>
        rw [ht] at e
        obtain ⟨_, s1, e1, e⟩ := M.bind_eq_ok.1 e
        cases e
        obtain ⟨l1, h1, _⟩ := hn.number hl rfl rfl e1
        rw [← ht]
        exact good (by rw [ht]; simp [NotSep]) l1 .boolNum ((h1 ht).2.cast (by rw [num1]))
      | _ => rw [ht] at e; cases e
    | int k =>
      obtain ⟨l1, h0, hk', t, i, t1, rfl, _, h⟩ := hn.deInt hl (show NS.deInt (rNext fl) k s = .ok v s' from e)
      rcases h with ⟨h1, h2, h3⟩ | ⟨m, rfl, h1, h2, h3, h4, h5⟩
      · exact good h0 l1 (.int hk' h1 h2 h3) (t1.cast (by rw [num1]))
      · exact good h0 l1 (.intWrap hk' h1 h2 h3 h4 h5) (t1.cast (by rw [num1]))
    | f32 =>
      obtain ⟨l1, h0, t, t1, rfl⟩ := hn.float (fl := fl) (g := fun x => Val.f32 (fl.to32 x)) hl e
      exact good h0 l1 .f32 (t1.cast (by rw [num1]))
    | f64 =>
      obtain ⟨l1, h0, t, t1, rfl⟩ := hn.float (fl := fl) (g := fun x => Val.f64 x) hl e
      exact good h0 l1 .f64 (t1.cast (by rw [num1]))
    | str =>
      obtain ⟨w, s1, e1, e⟩ := M.bind_eq_ok.1 (show (deStr (rNext fl) >>= fun s => (pure (.str s) : PM Val)) s = _ from e)
      cases e
      obtain ⟨h0, l1, t1⟩ := hn.deStr hl e1
      exact good (by rw [h0]; simp [NotSep]) l1 .str (t1.cast (by rw [str1]))
    | dur =>
      obtain ⟨h0, l1, ms, tr, a, b, h1, h2, h3, rfl, t1⟩ := deDur_inv hfl hl (show deDur (rNext fl) n s = _ from e)
      exact good h0 l1 (.dur h1 h2 h3) t1
    | time =>
      replace e : (if atNone s then (rNext fl >>= fun _ => epochAt .none) else (deDur (rNext fl) n >>= fun v => epochAt v) : PM Val) s = .ok v s' := e
      by_cases ha : atNone s = true
      · rw [if_pos ha] at e
        have hw := (atNone_iff hl).1 ha
        obtain ⟨_, s1, e1, e⟩ := M.bind_eq_ok.1 e
        cases e
        obtain ⟨l1, h1, t1, _⟩ := hn.step hw rfl rfl e1
        exact good (notSep_word hw) ⟨l1, h1⟩ .epoch (t1.cast (by rw [word1]))
      · rw [if_neg ha] at e
        obtain ⟨d, s1, e1, e⟩ := M.bind_eq_ok.1 e
        obtain ⟨h0, l1, ms, tr, a, b, h1, h2, h3, rfl, t1⟩ := deDur_inv hfl hl e1
        unfold epochAt at e
        simp only at e
        by_cases hs : a + b / 1000000000 < 2 ^ 63
        · rw [if_pos hs] at e
          cases e
          exact good h0 l1 (.time h1 h2 hs) t1
        · rw [if_neg hs] at e; cases e
    | option t =>
      replace e : (if atNone s then (rNext fl >>= fun _ => (pure .none : PM Val)) else (deRon env fl n t >>= fun v => (pure (.some v) : PM Val)) : PM Val) s = .ok v s' := e
      by_cases ha : atNone s = true
      · rw [if_pos ha] at e
        have hw := (atNone_iff hl).1 ha
        obtain ⟨_, s1, e1, e⟩ := M.bind_eq_ok.1 e
        cases e
        obtain ⟨l1, h1, t1, _⟩ := hn.step hw rfl rfl e1
        exact good (notSep_word hw) ⟨l1, h1⟩ .none (t1.cast (by rw [word1]))
      · rw [if_neg ha] at e
        obtain ⟨d, s1, e1, e⟩ := M.bind_eq_ok.1 e
        cases e
        obtain ⟨h0, l1, ⟨_, ⟨x, rfl, hx⟩, t1⟩ | hq⟩ := ih t s d _ hl e1
        · refine good h0 l1 (.some ?_ hx) t1
          have bad : ∀ {ls}, RTr fl s (.word ['N', 'o', 'n', 'e'] :: ls) s' → False := fun h =>
            ha ((atNone_iff hl).2 h.head)
          cases x with
          | word w =>
            rintro rfl
            exact bad (t1.cast (word1 _))
          | ctor w b =>
            rintro rfl
            exact bad (t1.cast (RTree.lexemes_ctor ..))
          | _ => trivial
        · exact ⟨h0, l1, .inr hq⟩
    | vec t =>
      obtain ⟨h0, l1, qs, tr, q1, q2, t1⟩ := deSeq_inv hfl (ih t) hl (show deSeq (rNext fl) n (deRon env fl n t) (fun acc v => acc ++ [v]) s = _ from e)
      rw [foldSnoc] at q2
      subst q2
      exact good h0 l1 (.vec qs q1) t1
    | linked t =>
      obtain ⟨h0, l1, qs, tr, q1, q2, t1⟩ := deSeq_inv hfl (ih t) hl (show deSeq (rNext fl) n (deRon env fl n t) (fun acc v => acc ++ [v]) s = _ from e)
      rw [foldSnoc] at q2
      subst q2
      exact good h0 l1 (.linked qs q1) t1
    | hset t =>
      obtain ⟨h0, l1, qs, tr, q1, q2, t1⟩ := deSeq_inv hfl (ih t) hl (show deSeq (rNext fl) n (deRon env fl n t) (collInsert env .hset) s = _ from e)
      rw [hset_fold_firsts hk] at q2
      subst q2
      exact good h0 l1 (.hset qs q1) t1
    | bset t =>
      obtain ⟨h0, l1, qs, tr, q1, rfl, t1⟩ := deSeq_inv hfl (ih t) hl (show deSeq (rNext fl) n (deRon env fl n t) (collInsert env .bset) s = _ from e)
      refine good h0 l1 (.bset qs q1 ⟨bset_fold_pairwise hk _ _ (by simp), fun x => ?_⟩) t1
      rw [bset_fold_mem hk]; simp
    | array t len =>
      obtain ⟨_, s1, e1, e⟩ := M.bind_eq_ok.1 (show (parenOpen (rNext fl) >>= fun _ =>
        repeatM (thenEat (deRon env fl n t) (eatCommaParen (rNext fl))) len >>= fun vs => parenClose (rNext fl) >>= fun _ =>
        (pure (.seq vs) : PM Val)) s = _ from e)
      obtain ⟨vs, s2, e2, e⟩ := M.bind_eq_ok.1 e
      obtain ⟨_, s3, e3, e⟩ := M.bind_eq_ok.1 e
      cases e
      obtain ⟨h0, l1, t1⟩ := hn.expect hl e1 (by simp)
      obtain ⟨l2, _, ps, tr, p1, p2, t2, rfl⟩ := Got.repeatM hn (ih t) (.inr (.inr rfl)) len l1 e2
      obtain ⟨_, l3, t3⟩ := hn.expect l2 e3 (by simp)
      obtain ⟨qs, q1, q2, q3, q4⟩ := items_inv p2
      rw [q4]
      rw [q4] at good
      refine good (by rw [h0]; simp [NotSep]) l3 (.array (tr := tr) qs (by rw [q2, p1]) q1) ?_
      rw [RTree.lexemes_tuple, List.map_map]
      have := t1.append (t2.append t3)
      rw [q3] at this
      simpa [Function.comp_def] using this
    | pair a b =>
      obtain ⟨h0, l1, qs, tr, q1, q2, rfl, t1⟩ := deTuple_inv hfl [a, b] ih hl e
      exact good (by rw [h0]; simp [NotSep]) l1 (.pair qs q1 q2) t1
    | triple a b c =>
      obtain ⟨h0, l1, qs, tr, q1, q2, rfl, t1⟩ := deTuple_inv hfl [a, b, c] ih hl e
      exact good (by rw [h0]; simp [NotSep]) l1 (.triple qs q1 q2) t1
    | quad a b c d =>
      obtain ⟨h0, l1, qs, tr, q1, q2, rfl, t1⟩ := deTuple_inv hfl [a, b, c, d] ih hl e
      exact good (by rw [h0]; simp [NotSep]) l1 (.quad qs q1 q2) t1
    | hmap k t =>
      obtain ⟨h0, l1, qs, tr, q1, q2, rfl, t1⟩ := deMap_inv hfl (ih k) (ih t) hl
        (show deMap (rNext fl) n (deRon env fl n k) (deRon env fl n t) (collInsert env .hmap) s = _ from e)
      have hE : AllEntries (qs.map fun p => Val.entry p.1.2 p.2.2) := by
        intro w hw
        obtain ⟨p, _, rfl⟩ := List.mem_map.1 hw
        exact ⟨_, _, rfl⟩
      refine good h0 l1 (.hmap qs q1 q2 ⟨(hmap_fold_pairwise hk _ [] hE (by simp [AllEntries]) (by simp)).1, fun q => ?_⟩ ?_) t1
      · rw [hmap_fold_get hk _ _ _ hE (by simp [AllEntries])]
        cases lastVal q (qs.map fun p => Val.entry p.1.2 p.2.2) <;> rfl
      · rw [hmap_fold_keys _ _ hE (by simp [AllEntries]), List.map_nil, hset_fold_firsts hk, List.map_map]
        rfl
    | bmap k t =>
      obtain ⟨h0, l1, qs, tr, q1, q2, rfl, t1⟩ := deMap_inv hfl (ih k) (ih t) hl
        (show deMap (rNext fl) n (deRon env fl n k) (deRon env fl n t) (collInsert env .bmap) s = _ from e)
      have hE : AllEntries (qs.map fun p => Val.entry p.1.2 p.2.2) := by
        intro w hw
        obtain ⟨p, _, rfl⟩ := List.mem_map.1 hw
        exact ⟨_, _, rfl⟩
      have hp := bmap_fold_pairwise hk (qs.map fun p => Val.entry p.1.2 p.2.2) [] hE (by simp [AllEntries]) (by simp)
      refine good h0 l1 (.bmap qs q1 q2 ⟨hp.1, fun q => ?_⟩ hp.2) t1
      rw [bmap_fold_get hk _ _ _ hE (by simp [AllEntries])]
      cases lastVal q (qs.map fun p => Val.entry p.1.2 p.2.2) <;> rfl
    | box t =>
      obtain ⟨d, s1, e1, e⟩ := M.bind_eq_ok.1 (show (deRon env fl n t >>= fun v => (pure (.box v) : PM Val)) s = _ from e)
      cases e
      obtain ⟨h0, l1, ⟨_, ⟨x, rfl, hx⟩, t1⟩ | hq⟩ := ih t s d _ hl e1
      · exact good h0 l1 (.box hx) t1
      · exact ⟨h0, l1, .inr hq⟩
    | named i =>
      rw [deRon] at e
      cases hdef : env.defs[i]? with
      | none => rw [hdef] at e; cases e
      | some d =>
        rw [hdef] at e
        cases d with
        | struct fs cd nul =>
          obtain ⟨vs, s1, e1, e⟩ := M.bind_eq_ok.1 e
          cases e
          obtain ⟨h0, l1, ps, tr, p1, p2, t1⟩ := deRonNamed_inv hfl (hd.fields i fs cd nul hdef) ih hl e1
          exact good (by rw [h0]; simp [NotSep]) l1 (.struct ps hdef p1 p2) t1
        | tuple ts trans =>
          obtain ⟨vs, s1, e1, e⟩ := M.bind_eq_ok.1 e
          cases e
          obtain ⟨h0, l1, qs, tr, q1, q2, rfl, t1⟩ := deRonTys_inv hfl ts ih hl e1
          exact good (by rw [h0]; simp [NotSep]) l1 (.tupleStruct qs (by rw [hdef, q1]) q2) t1
        | enum vars => exact deRonEnum_inv hfl hdef hd ih hl e
    | proxied i => cases e

end NS
