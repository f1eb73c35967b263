import Verif.Lemmas.RonSound
import Verif.Lemmas.RonRead2
import Verif.Lemmas.JsonTotal
import Verif.Spec.JsonMeans
/-! What the RON reader accepts: compound values and the whole reader. -/
namespace NS
variable {fl : FloatOps} {env : Env}

theorem exists_list {α β : Type} {R : α → β → Prop} (l : List α) (h : ∀ a ∈ l, ∃ b, R a b) :
    ∃ qs : List (α × β), qs.map (·.1) = l ∧ ∀ q ∈ qs, R q.1 q.2 := by
  induction l with
  | nil => exact ⟨[], rfl, by simp⟩
  | cons a l ih =>
    obtain ⟨b, hb⟩ := h a (by simp)
    obtain ⟨qs, h1, h2⟩ := ih fun a ha => h a (by simp [ha])
    refine ⟨(a, b) :: qs, by simp [h1], fun q hq => ?_⟩
    rcases List.mem_cons.1 hq with rfl | hq
    · exact hb
    · exact h2 q hq

theorem last_named (ps : List RMember) (k : List Char) :
    (∀ q ∈ ps, q.1 ≠ k) ∨ ∃ a p b, ps = a ++ p :: b ∧ p.1 = k ∧ ∀ q ∈ b, q.1 ≠ k := by
  induction ps with
  | nil => exact .inl (by simp)
  | cons p ps ih =>
    rcases ih with h | ⟨a, q, b, rfl, h1, h2⟩
    · by_cases hp : p.1 = k
      · exact .inr ⟨[], p, ps, rfl, hp, h⟩
      · exact .inl fun q hq => by
          rcases List.mem_cons.1 hq with rfl | hq
          · exact hp
          · exact h q hq
    · exact .inr ⟨p :: a, q, b, rfl, h1, h2⟩

namespace Ron

theorem fields_of_unwrap {cd fs} {ps : List RMember} {vs} (hd : DistinctNames fs) (hk : KnownMembers fs ps)
    (h : decUnwrap cd fs (ps.foldl (mstep fs) (fs.map fun _ => none)) = .ok vs) : FieldsGet cd fs ps vs := by
  rw [unwrap_ok _ _ (by rw [msteps_length]; simp)] at h
  obtain ⟨hl, hv⟩ := h
  refine ⟨hd, hk, hl, fun i f w hf hw => ?_⟩
  have hil : i < fs.length := by
    rcases Nat.lt_or_ge i fs.length with h | h
    · exact h
    · rw [List.getElem?_eq_none h] at hf; cases hf
  have ho : ∃ o, (ps.foldl (mstep fs) (fs.map fun _ => none))[i]? = some o :=
    ⟨_, List.getElem?_eq_getElem (by rw [msteps_length]; simpa using hil)⟩
  obtain ⟨o, ho⟩ := ho
  have := hv i f o w hf ho hw
  unfold FieldGets
  cases hs : f.skip with
  | true =>
    rw [if_pos rfl]
    rcases this with ⟨h, _⟩ | ⟨_, _, h⟩
    · rw [hs] at h; cases h
    · exact h
  | false =>
    rw [if_neg (by simp)]
    have other : ∀ {q : RMember}, q.1 ≠ f.jsonName → findField fs q.1 ≠ some i := by
      intro q hq e
      obtain ⟨f', hf', _, hn⟩ := (findField_iff hd).1 e
      rw [hf] at hf'; injection hf' with hf'; subst hf'
      exact hq hn.symm
    rcases last_named ps f.jsonName with hno | ⟨a, p, b, rfl, hp, hb⟩
    · rw [msteps_none ps _ fun q hq => other (hno q hq)] at ho
      have ho : none = o := by simpa [hil] using ho
      subst ho
      rcases this with ⟨_, h⟩ | ⟨_, h1, h2⟩
      · cases h
      · exact .inr ⟨hno, h1, h2⟩
    · rw [msteps_last a b _ (by simpa using hil) ((findField_iff hd).2 ⟨f, hf, hs, hp.symm⟩) fun q hq => other (hb q hq)] at ho
      injection ho with ho
      subst ho
      rcases this with ⟨_, h⟩ | ⟨h, _⟩
      · injection h with h
        exact .inl ⟨a, p, b, rfl, hp, hb, h.symm⟩
      · rcases h with h | h
        · rw [hs] at h; cases h
        · cases h

end Ron

/-- The lexemes of a value of type `t`. -/
def RP (env : Env) (fl : FloatOps) (t : Ty) (ls : List Lexeme) (v : Val) : Prop :=
  ∃ x : RTree, ls = x.lexemes ∧ RonMeans env fl t x v

/-- A word followed by another word. -/
def RQ (fl : FloatOps) (s : PSt) (_ : Val) (s' : PSt) : Prop :=
  ∃ w w', AtL rtok (RLex fl) s (.word w) ∧ AtL rtok (RLex fl) s' (.word w') ∧ Tr rtok (RLex fl) s [.word w] s'

abbrev RGot (env : Env) (fl : FloatOps) (rd : PM Val) (t : Ty) : Prop := Got rtok (RLex fl) rd (RP env fl t) (RQ fl)

abbrev RLexed (fl : FloatOps) := Lexed rtok (RLex fl)
abbrev RTr (fl : FloatOps) := Tr rtok (RLex fl)

theorem AtL.ident {s} (h : RLexed fl s) (ht : s.tok = .ident) : AtL rtok (RLex fl) s (.word s.identbuf) ∧ NotBool s.identbuf := by
  obtain ⟨l, h⟩ := h
  obtain ⟨a, b, hx⟩ := h.ok
  obtain ⟨w, rfl, hw⟩ := (rtok_inv hx h.tok.symm).2.2.1 ht
  rw [h.ib w rfl]
  exact ⟨h, hw⟩

theorem notSep_word {s : PSt} {w} (h : AtL rtok (RLex fl) s (.word w)) : NotSep s.tok := by
  rw [h.tok]
  rcases rtok_word w with ⟨e, _⟩ | ⟨b, e, _⟩ <;> rw [e] <;> simp [NotSep]

variable (hfl : FloatLaws fl)
include hfl

theorem rMember_inv {de : Ty → PM Val} {fs : List Field} {acc s acc' s'} (hd : DistinctNames fs)
    (hde : ∀ t, RGot env fl (de t) t) (hl : RLexed fl s) (ht : s.tok = .ident)
    (e : rMember (rNext fl) de fs acc s = .ok acc' s') :
    RLexed fl s' ∧ ∃ (b : RMember) (sep : List Lexeme),
      (NotBool b.1 ∧ ∃ f ∈ fs, f.skip = false ∧ f.jsonName = b.1 ∧ RonMeans env fl f.ty b.2.1 b.2.2) ∧
      RTr fl s (.word b.1 :: .punct .colon :: b.2.1.lexemes ++ sep) s' ∧ acc' = Ron.mstep fs acc b ∧
      (sep = [.punct .comma] ∨ (sep = [] ∧ s'.tok = .parenClose)) := by
  have hn := rLexSound hfl
  obtain ⟨hw, hnb⟩ := AtL.ident hl ht
  replace e : (rMemberValue (rNext fl) de fs acc s.identbuf >>= fun acc' => eatCommaParen (rNext fl) >>= fun _ => (pure acc' : PM _)) s =
    .ok acc' s' := e
  obtain ⟨r, s1, e1, e⟩ := M.bind_eq_ok.1 e
  obtain ⟨_, s2, e2, e⟩ := M.bind_eq_ok.1 e
  cases e
  unfold rMemberValue at e1
  by_cases he : fs.isEmpty = true
  · rw [if_pos he] at e1
    cases e1
    obtain ⟨e', h'⟩ := eatComma_err (nx := rNext fl) (what := ", or )") (close := .parenClose) (st := s) (by rw [ht]; decide) (by rw [ht]; decide)
    unfold eatCommaParen at e2
    rw [h'] at e2; cases e2
  rw [if_neg he] at e1
  cases hff : findField fs s.identbuf with
  | none => rw [hff] at e1; cases e1
  | some i =>
    rw [hff] at e1
    obtain ⟨f, hf, hs, hname⟩ := (findField_iff hd).1 hff
    have hget : fs.getD i { name := [], ty := .unit } = f := by simp [List.getD, hf]
    simp only [hget] at e1
    obtain ⟨_, s3, e3, e1⟩ := M.bind_eq_ok.1 e1
    obtain ⟨v, s4, e4, e1⟩ := M.bind_eq_ok.1 e1
    cases e1
    obtain ⟨_, s5, e5, e3⟩ := M.bind_eq_ok.1 e3
    obtain ⟨l5, h5, t5, _⟩ := hn.step hw rfl rfl e5
    obtain ⟨_, l3, t3⟩ := hn.expect ⟨l5, h5⟩ e3 (by simp)
    obtain ⟨l2, ls, sep, ⟨x, rfl, hx⟩, t2, h2⟩ := Got.sep hn (hde f.ty) l3 e4 e2 (.inr (.inr rfl))
    refine ⟨l2, (s.identbuf, x, v), sep, ⟨hnb, f, List.mem_of_getElem? hf, hs, hname, hx⟩, ?_, ?_, h2⟩
    · simpa using t5.append (t3.append t2)
    · simp [Ron.mstep, hff]

theorem deRonNamed_inv {de : Ty → PM Val} {fs : List Field} {cd n s vs s'} (hd : DistinctNames fs)
    (hde : ∀ t, RGot env fl (de t) t) (hl : RLexed fl s) (e : deRonNamed (rNext fl) n de cd fs s = .ok vs s') :
    s.tok = .parenOpen ∧ RLexed fl s' ∧ ∃ (ps : List RMember) (tr : Bool), FieldsGet cd fs ps vs ∧
      (∀ p ∈ ps, ∀ f ∈ fs, f.skip = false → f.jsonName = p.1 → RonMeans env fl f.ty p.2.1 p.2.2) ∧
      RTr fl s (RTree.fields (ps.map fun p => (p.1, p.2.1)) tr).lexemes s' := by
  have hn := rLexSound hfl
  unfold deRonNamed at e
  obtain ⟨_, s1, e1, e⟩ := M.bind_eq_ok.1 e
  obtain ⟨acc, s2, e2, e⟩ := M.bind_eq_ok.1 e
  obtain ⟨_, s3, e3, e4⟩ := M.bind_eq_ok.1 e
  obtain ⟨h0, l1, t1⟩ := hn.expect hl e1 (by simp)
  obtain ⟨l2, ps, tr, hps, t2, rfl, _⟩ := trIs_inv (t := .ident) (close := .parenClose) (by decide)
    (R := fun _ (b : RMember) => NotBool b.1 ∧ ∃ f ∈ fs, f.skip = false ∧ f.jsonName = b.1 ∧ RonMeans env fl f.ty b.2.1 b.2.2)
    (step := Ron.mstep fs) (lx := fun b : RMember => .word b.1 :: .punct .colon :: b.2.1.lexemes)
    (fun acc s acc' s' hl ht e => rMember_inv hfl hd hde hl ht e) n l1 e2
  obtain ⟨_, l3, t3⟩ := hn.expect l2 e3 (by simp)
  have hps := hps.forall
  have hk : KnownMembers fs ps := fun p hp => ⟨(hps p hp).1, by
    obtain ⟨f, h1, h2, h3, _⟩ := (hps p hp).2; exact ⟨f, h1, h2, h3⟩⟩
  have hu := unwrapFields_agree cd fs (ps.foldl (Ron.mstep fs) (fs.map fun _ => none)) s3
  have hs3 : s' = s3 ∧ decUnwrap cd fs (ps.foldl (Ron.mstep fs) (fs.map fun _ => none)) = .ok vs := by
    cases hx : decUnwrap cd fs (ps.foldl (Ron.mstep fs) (fs.map fun _ => none)) with
    | ok w =>
      rw [hx] at hu
      obtain ⟨s4, h4, rfl⟩ := hu
      rw [e4] at h4; injection h4 with h4 h5
      exact ⟨h5, by rw [h4]⟩
    | err =>
      rw [hx] at hu
      obtain ⟨e, s4, h4⟩ := hu
      rw [e4] at h4; cases h4
    | panic =>
      rw [hx] at hu
      replace hu : unwrapFields cd fs _ s3 = .panic := hu
      rw [e4] at hu; cases hu
    | oof => exact absurd hx (decUnwrap_ne _ _ _)
  obtain ⟨rfl, hs3⟩ := hs3
  refine ⟨h0, l3, ps, tr, Ron.fields_of_unwrap hd hk hs3, fun p hp f hf hs hname => ?_, ?_⟩
  · obtain ⟨_, f', hf', hs', hn', hm⟩ := hps p hp
    obtain ⟨i, hi⟩ := List.getElem?_of_mem hf
    obtain ⟨j, hj⟩ := List.getElem?_of_mem hf'
    have h1 := (findField_iff hd).2 ⟨f, hi, hs, hname⟩
    have h2 := (findField_iff hd).2 ⟨f', hj, hs', hn'⟩
    rw [h1] at h2; injection h2 with h2; subst h2
    rw [hi] at hj; injection hj with hj; subst hj
    exact hm
  · rw [RTree.lexemes_fields, List.map_map]
    simpa [Function.comp_def] using t1.append (t2.append t3)

omit hfl in
/-- The components of tuples. -/
theorem tys_inv {ts : List Ty} {ps : List (Ty × List Lexeme × Val)} (h1 : ps.map (·.1) = ts) (h2 : ∀ p ∈ ps, RP env fl p.1 p.2.1 p.2.2) :
    ∃ qs : List (Ty × RTree × Val), qs.map (·.1) = ts ∧ (∀ q ∈ qs, RonMeans env fl q.1 q.2.1 q.2.2) ∧
      ps.map (·.2.1) = qs.map (fun q => q.2.1.lexemes) ∧ ps.map (·.2.2) = qs.map (·.2.2) := by
  obtain ⟨qs, g1, g2⟩ := exists_list ps h2
  refine ⟨qs.map fun q => (q.1.1, q.2, q.1.2.2), ?_, ?_, ?_, ?_⟩
  · rw [← h1, ← g1]; simp
  · intro q hq
    obtain ⟨r, hr, rfl⟩ := List.mem_map.1 hq
    exact (g2 r hr).2
  · rw [← g1, List.map_map, List.map_map]
    exact List.map_congr_left fun q hq => (g2 q hq).1
  · rw [← g1]; simp

omit hfl in
theorem items_inv {t : Ty} {ps : List (List Lexeme × Val)} (h2 : ∀ p ∈ ps, RP env fl t p.1 p.2) :
    ∃ qs : List (RTree × Val), (∀ q ∈ qs, RonMeans env fl t q.1 q.2) ∧ qs.length = ps.length ∧
      ps.map (·.1) = qs.map (fun q => q.1.lexemes) ∧ ps.map (·.2) = qs.map (·.2) := by
  obtain ⟨qs, g1, g2⟩ := exists_list ps h2
  refine ⟨qs.map fun q => (q.2, q.1.2), ?_, ?_, ?_, ?_⟩
  · intro q hq
    obtain ⟨r, hr, rfl⟩ := List.mem_map.1 hq
    exact (g2 r hr).2
  · rw [← g1]; simp
  · rw [← g1, List.map_map, List.map_map]
    exact List.map_congr_left fun q hq => (g2 q hq).1
  · rw [← g1]; simp

theorem deTuple_inv {de : Ty → PM Val} (ts : List Ty) {s v s'} (hde : ∀ t, RGot env fl (de t) t) (hl : RLexed fl s)
    (e : deTuple (parenOpen (rNext fl)) (parenClose (rNext fl)) (eatCommaParen (rNext fl)) de ts s = .ok v s') :
    s.tok = .parenOpen ∧ RLexed fl s' ∧ ∃ (qs : List (Ty × RTree × Val)) (tr : Bool), qs.map (·.1) = ts ∧
      (∀ q ∈ qs, RonMeans env fl q.1 q.2.1 q.2.2) ∧ v = .seq (qs.map (·.2.2)) ∧
      RTr fl s (RTree.tuple (qs.map (·.2.1)) tr).lexemes s' := by
  have hn := rLexSound hfl
  unfold deTuple at e
  obtain ⟨_, s1, e1, e⟩ := M.bind_eq_ok.1 e
  obtain ⟨vs, s2, e2, e⟩ := M.bind_eq_ok.1 e
  obtain ⟨_, s3, e3, e⟩ := M.bind_eq_ok.1 e
  cases e
  obtain ⟨h0, l1, t1⟩ := hn.expect hl e1 (by simp)
  obtain ⟨l2, _, ps, tr, p1, p2, t2, rfl⟩ := Got.deTysComma hn (PT := RP env fl) (.inr (.inr rfl)) ts (fun t _ => hde t) l1 e2
  obtain ⟨_, l3, t3⟩ := hn.expect l2 e3 (by simp)
  obtain ⟨qs, q1, q2, q3, q4⟩ := tys_inv p1 p2
  refine ⟨h0, l3, qs, tr, q1, q2, by rw [q4], ?_⟩
  rw [RTree.lexemes_tuple, List.map_map]
  have := t1.append (t2.append t3)
  rw [q3] at this
  simpa [Function.comp_def] using this

theorem deRonTys_inv {de : Ty → PM Val} (ts : List Ty) {s vs s'} (hde : ∀ t, RGot env fl (de t) t) (hl : RLexed fl s)
    (e : deRonTys (rNext fl) de ts s = .ok vs s') :
    s.tok = .parenOpen ∧ RLexed fl s' ∧ ∃ (qs : List (Ty × RTree × Val)) (tr : Bool), qs.map (·.1) = ts ∧
      (∀ q ∈ qs, RonMeans env fl q.1 q.2.1 q.2.2) ∧ vs = qs.map (·.2.2) ∧
      RTr fl s (RTree.tuple (qs.map (·.2.1)) tr).lexemes s' := by
  have hn := rLexSound hfl
  unfold deRonTys at e
  obtain ⟨_, s1, e1, e⟩ := M.bind_eq_ok.1 e
  obtain ⟨vs, s2, e2, e⟩ := M.bind_eq_ok.1 e
  obtain ⟨_, s3, e3, e⟩ := M.bind_eq_ok.1 e
  cases e
  obtain ⟨h0, l1, t1⟩ := hn.expect hl e1 (by simp)
  obtain ⟨l2, _, ps, tr, p1, p2, t2, rfl⟩ := Got.deTysEat hn (PT := RP env fl) (.inr (.inr rfl)) ts (fun t _ => hde t) l1 e2
  obtain ⟨_, l3, t3⟩ := hn.expect l2 e3 (by simp)
  obtain ⟨qs, q1, q2, q3, q4⟩ := tys_inv p1 p2
  refine ⟨h0, l3, qs, tr, q1, q2, by rw [q4], ?_⟩
  rw [RTree.lexemes_tuple, List.map_map]
  have := t1.append (t2.append t3)
  rw [q3] at this
  simpa [Function.comp_def] using this

theorem deSeq_inv {rd : PM Val} {t n add s v s'} (hde : RGot env fl rd t) (hl : RLexed fl s)
    (e : deSeq (rNext fl) n rd add s = .ok v s') :
    NotSep s.tok ∧ RLexed fl s' ∧ ∃ (qs : List (RTree × Val)) (tr : Bool),
      (∀ q ∈ qs, RonMeans env fl t q.1 q.2) ∧ v = .seq ((qs.map (·.2)).foldl add []) ∧
      RTr fl s (RTree.list (qs.map (·.1)) tr).lexemes s' := by
  have hn := rLexSound hfl
  obtain ⟨h0, l, ps, tr, h1, h2, h3⟩ := Got.deSeq hn hde hl e
  obtain ⟨qs, q1, _, q3, q4⟩ := items_inv h1
  refine ⟨by rw [h0]; simp [NotSep], l, qs, tr, q1, by rw [h3, q4], ?_⟩
  rw [RTree.lexemes_list, List.map_map]
  rw [q3] at h2
  exact h2

theorem deMap_inv {rk rv : PM Val} {k t n add s v s'} (hk : RGot env fl rk k) (hv : RGot env fl rv t) (hl : RLexed fl s)
    (e : deMap (rNext fl) n rk rv add s = .ok v s') :
    NotSep s.tok ∧ RLexed fl s' ∧ ∃ (qs : List ((RTree × Val) × (RTree × Val))) (tr : Bool),
      (∀ q ∈ qs, RonMeans env fl k q.1.1 q.1.2) ∧ (∀ q ∈ qs, RonMeans env fl t q.2.1 q.2.2) ∧
      v = .seq ((qs.map fun p => Val.entry p.1.2 p.2.2).foldl add []) ∧
      RTr fl s (RTree.map (qs.map fun p => (p.1.1, p.2.1)) tr).lexemes s' := by
  have hn := rLexSound hfl
  obtain ⟨h0, l, ps, tr, h1, h2, h3⟩ := Got.deMap hn hk hv hl e
  obtain ⟨qs, g1, g2⟩ := exists_list (R := fun (p : (List Lexeme × Val) × (List Lexeme × Val)) (x : RTree × RTree) =>
    (p.1.1 = x.1.lexemes ∧ RonMeans env fl k x.1 p.1.2) ∧ (p.2.1 = x.2.lexemes ∧ RonMeans env fl t x.2 p.2.2)) ps fun p hp => by
      obtain ⟨⟨x, hx⟩, y, hy⟩ := h1 p hp
      exact ⟨(x, y), hx, hy⟩
  refine ⟨by rw [h0]; simp [NotSep], l, qs.map fun q => ((q.2.1, q.1.1.2), (q.2.2, q.1.2.2)), tr, ?_, ?_, ?_, ?_⟩
  · intro q hq
    obtain ⟨r, hr, rfl⟩ := List.mem_map.1 hq
    exact (g2 r hr).1.2
  · intro q hq
    obtain ⟨r, hr, rfl⟩ := List.mem_map.1 hq
    exact (g2 r hr).2.2
  · rw [h3, ← g1]; simp [Function.comp_def]
  · rw [RTree.lexemes_map, List.map_map, List.map_map]
    have : (ps.map fun p => p.1.1 ++ Lexeme.punct .colon :: p.2.1) =
        qs.map fun q => q.2.1.lexemes ++ Lexeme.punct .colon :: q.2.2.lexemes := by
      rw [← g1, List.map_map]
      exact List.map_congr_left fun q hq => by simp [(g2 q hq).1.1, (g2 q hq).2.1]
    rw [this] at h2
    exact h2

end NS
