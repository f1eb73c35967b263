import Verif.Lemmas.DeriveVariant

/-!
# Reading generic parameters and `where` clauses
-/

namespace NS.Derive

/-! ### One parameter -/

/-- The bounds of `n` in a list of `where` items. -/
def wb (ws : List RWhere) (n : Txt) : List RTy := (ws.filter fun w => w.name = n).flatMap RWhere.bounds

/-- The tree of a parameter, with the bounds of the `where` items `ws`. -/
def pgen (ws : List RWhere) : RParam → Generic
  | .lifetime l bs => .lifetime l bs
  | .type n bs d => .generic n (d.map ptype) ((bs ++ wb ws n).map ptype)

theorem pgen_full (ws : List RWhere) (p : RParam) : (pgen ws p).full = p.name := by cases p <;> rfl

/-- What the type parser must be able to read for a parameter. -/
def ReadsParam (ty : DM (Option PType)) : RParam → Prop
  | .lifetime _ _ => True
  | .type n bs d => Reads ty (.path false [n] []) ∧ (∀ b ∈ bs, Reads ty b) ∧ ∀ t ∈ d, Reads ty t

/-- The number of bounds of a parameter. -/
def RParam.nBounds : RParam → Nat
  | .lifetime _ bs => bs.length
  | .type _ bs _ => bs.length

/-- What follows a parameter or a `where` item: `,`, `>`, `;` or a group. -/
def After : List TT → Prop
  | .punct c :: _ => c = ',' ∨ c = '>' ∨ c = ';'
  | .group _ _ :: _ => True
  | _ => False

theorem After.follow {r : List TT} (h : After r) : Follow r := by
  rcases r with _ | ⟨t, r⟩
  · trivial
  · cases t with
    | punct c =>
      rcases h with rfl | rfl | rfl
      · exact follow_comma r
      · exact follow_gt r
      · exact follow_semi r
    | group d g => trivial
    | ident s => exact absurd h id
    | lit s => exact absurd h id

theorem After.exact {r : List TT} (h : After r) {c : Char} (hc : c ≠ ',' ∧ c ≠ '>' ∧ c ≠ ';') :
    nextExactPunct c r = .ok false r := by
  rcases r with _ | ⟨t, r⟩
  · rfl
  · cases t with
    | punct c' =>
      have : c' ≠ c := by
        intro e; subst e
        rcases h with h | h | h
        · exact hc.1 h
        · exact hc.2.1 h
        · exact hc.2.2 h
      simp [nextExactPunct, this]
    | _ => rfl

theorem exactPunct_pos (c : Char) (r : List TT) : nextExactPunct c (.punct c :: r) = .ok true r := by
  simp [nextExactPunct]

theorem boundsLoop_reads {ty : DM (Option PType)} {b : RTy} {bs : List RTy} (h : ∀ x ∈ b :: bs, Reads ty x)
    (he : ∀ x ∈ b :: bs, x.endsObj = false) {m : Nat} (hm : bs.length < m) (acc : List PType) {rest : List TT} (hf : Follow rest)
    (hp : nextExactPunct '+' rest = .ok false rest) :
    boundsLoop ty m acc (b.toks ++ (morePlus bs ++ rest)) = .ok (acc ++ (b :: bs).map ptype) rest := by
  induction bs generalizing b m acc with
  | nil =>
    obtain ⟨j, rfl⟩ : ∃ j, m = j + 1 := ⟨m - 1, by simp at hm; omega⟩
    unfold boundsLoop
    rw [M.bind_ok (h b (by simp) _ (by simpa [morePlus] using hf) fun _ => by simpa [morePlus, NoPlus] using hp)]
    simp only [morePlus, List.flatMap_nil, List.nil_append, Option.toList]
    rw [M.bind_ok hp]
    rfl
  | cons c cs ih =>
    obtain ⟨j, rfl⟩ : ∃ j, m = j + 1 := ⟨m - 1, by simp at hm; omega⟩
    have e : morePlus (c :: cs) ++ rest = .punct '+' :: (c.toks ++ (morePlus cs ++ rest)) := by simp [morePlus]
    unfold boundsLoop
    rw [e, M.bind_ok (h b (by simp) _ (follow_plus _) fun e => by rw [he b (by simp)] at e; exact absurd e (by simp))]
    simp only [Option.toList]
    rw [M.bind_ok (exactPunct_pos _ _)]
    simp only [if_true]
    rw [ih (fun x hx => h x (by simp [List.mem_cons] at hx ⊢; rcases hx with hx | hx <;> simp [hx]))
      (fun x hx => he x (by simp [List.mem_cons] at hx ⊢; rcases hx with hx | hx <;> simp [hx])) (by simp at hm; omega)]
    simp

theorem boundToks_cons (b : RTy) (bs : List RTy) : boundToks (toksList (b :: bs)) = .punct ':' :: (b.toks ++ morePlus bs) := by
  rw [toksList_eq]
  simp only [List.map_cons, boundToks, List.cons_append, List.nil_append]
  rw [sepBy_flatMap, List.flatMap_map]
  rfl

theorem bound_ends {b : RTy} (h : b.isBound) : b.endsObj = false := by
  cases b <;> simp_all [RTy.isBound, RTy.endsObj]

theorem follow_bound {b : RTy} (hb : b.WF) (hi : b.isBound) (r : List TT) : Follow (.punct ':' :: (b.toks ++ r)) := by
  cases b with
  | path glob segs args =>
    obtain rfl : glob = false := by simpa [RTy.isBound] using hi
    obtain ⟨s, rs, rfl⟩ : ∃ s r, segs = s :: r := by
      cases segs with
      | nil => exact absurd hb.1 id
      | cons s r => exact ⟨s, r, rfl⟩
    cases args <;> simp [RTy.toks, segToks_cons, Follow]
  | assoc glob segs name t =>
    obtain rfl : glob = false := by simpa [RTy.isBound] using hi
    obtain ⟨s, rs, rfl⟩ : ∃ s r, segs = s :: r := by
      cases segs with
      | nil => exact absurd hb.1 id
      | cons s r => exact ⟨s, r, rfl⟩
    simp [RTy.toks, segToks_cons, Follow]
  | fnTy k args => simp [RTy.toks, Follow]
  | fnRet k args r => simp [RTy.toks, Follow]
  | lifetime l => simp [RTy.toks, Follow]
  | _ => simp [RTy.isBound] at hi

/-- The optional bounds of a type parameter. -/
theorem bounds_opt {ty : DM (Option PType)} {bs : List RTy} (h : ∀ x ∈ bs, Reads ty x)
    (he : ∀ x ∈ bs, x.isBound) {m : Nat} (hm : bs.length < m)
    {rest : List TT} (hf : Follow rest) (hp : nextExactPunct '+' rest = .ok false rest)
    (hc : nextExactPunct ':' rest = .ok false rest) :
    (do if ← nextExactPunct ':' then boundsLoop ty m [] else pure [] : DM (List PType)) (boundToks (toksList bs) ++ rest) =
      .ok (bs.map ptype) rest := by
  cases bs with
  | nil => simp only [toksList, boundToks, List.nil_append]; rw [M.bind_ok hc]; rfl
  | cons b bs =>
    rw [boundToks_cons, List.cons_append, M.bind_ok (exactPunct_pos _ _), List.append_assoc]
    simp only [if_true]
    rw [boundsLoop_reads h (fun x hx => bound_ends (he x hx)) (by simp at hm; omega) [] hf hp]
    rfl

theorem bounds_follow {bs : List RTy} (hw : WFList bs) (hi : ∀ b ∈ bs, b.isBound) {rest : List TT} (hf : Follow rest) :
    Follow (boundToks (toksList bs) ++ rest) := by
  cases bs with
  | nil => simpa [toksList, boundToks] using hf
  | cons b bs =>
    rw [boundToks_cons, List.cons_append, List.append_assoc]
    exact follow_bound hw.1 (hi b (by simp)) _

theorem full_ident {n : Txt} (h : Segs [n]) : (ptype (.path false [n] [])).full = n := by
  rw [full_ptype (.path false [n] []) (by exact ⟨h, trivial⟩)]
  simp [RTy.text, segText, sepBy]

/-- `= D`. -/
def dfltToks : Option RTy → List TT
  | none => []
  | some t => .punct '=' :: t.toks

theorem dflt_opt {ty : DM (Option PType)} {d : Option RTy} (h : ∀ t ∈ d, Reads ty t) {rest : List TT} (ha : After rest) :
    (do
      if ← nextExactPunct '=' then do
        let d ← ty >>= expect
        pure (some d)
      else pure none : DM (Option PType))
      (dfltToks d ++ rest) = .ok (d.map ptype) rest := by
  cases d with
  | none => rw [dfltToks, List.nil_append, M.bind_ok (ha.exact (by decide))]; rfl
  | some t =>
    simp only [dfltToks, List.cons_append]
    rw [M.bind_ok (exactPunct_pos _ _)]
    simp only [if_true]
    rw [M.bind_ok (reads_expect (h t rfl) ha.follow fun _ => ha.exact (by decide))]
    rfl

theorem nextGeneric_type {k : Nat} {ty : DM (Option PType)} {n : Txt} {bs : List RTy} {d : Option RTy}
    (hs : Segs [n]) (hcst : n ≠ "const".toList) (hw : WFList bs) (hi : ∀ b ∈ bs, b.isBound)
    (h : ReadsParam ty (.type n bs d)) (hk : bs.length < k) {rest : List TT} (ha : After rest) :
    nextGeneric k ty ((RParam.type n bs d).toks ++ rest) = .ok (some (.generic n (d.map ptype) (bs.map ptype))) rest := by
  have e : (RParam.type n bs d).toks ++ rest = .ident n :: (boundToks (toksList bs) ++ (dfltToks d ++ rest)) := by
    cases d <;> simp [RParam.toks, dfltToks]
  have hd1 : Follow (dfltToks d ++ rest) := by
    cases d with
    | none => exact ha.follow
    | some t => exact follow_eq _
  have hd2 : ∀ c, c ≠ '=' → (c ≠ ',' ∧ c ≠ '>' ∧ c ≠ ';') → nextExactPunct c (dfltToks d ++ rest) = .ok false (dfltToks d ++ rest) := by
    intro c hc hc'
    cases d with
    | none => exact ha.exact hc'
    | some t =>
      show nextExactPunct c (.punct '=' :: (t.toks ++ rest)) = .ok false (.punct '=' :: (t.toks ++ rest))
      simp [nextExactPunct, Ne.symm hc]
  rw [e]
  unfold nextGeneric
  rw [M.bind_ok (show peek _ = .ok (some (.ident n)) _ from rfl)]
  simp only
  rw [if_neg hcst]
  have h1 := reads_expect h.1 (bounds_follow hw hi hd1) (fun e => by simp [RTy.endsObj] at e)
  rw [show (RTy.path false [n] []).toks = [.ident n] by simp [RTy.toks, segToks, sepBy]] at h1
  rw [List.cons_append, List.nil_append] at h1
  rw [M.bind_ok h1, M.bind_ok (bounds_opt h.2.1 hi hk hd1 (hd2 '+' (by decide) (by decide)) (hd2 ':' (by decide) (by decide)))]
  rw [M.bind_ok (dflt_opt h.2.2 ha), full_ident hs]
  rfl

/-- `+ 'b + 'c`. -/
def moreLt (bs : List Txt) : List TT := bs.flatMap fun b => [.punct '+', .punct '\'', .ident b]

theorem lifetimeLoop_reads {b : Txt} {bs : List Txt} {m : Nat} (hm : bs.length < m) (acc : List Txt) {rest : List TT}
    (ha : After rest) :
    lifetimeLoop m acc (.punct '\'' :: .ident b :: (moreLt bs ++ rest)) = .ok (acc ++ b :: bs) rest := by
  induction bs generalizing b m acc with
  | nil =>
    obtain ⟨j, rfl⟩ : ∃ j, m = j + 1 := ⟨m - 1, by simp at hm; omega⟩
    unfold lifetimeLoop
    simp only [moreLt, List.flatMap_nil, List.nil_append]
    rw [M.bind_ok (show nextLifetime _ = .ok (some b) rest from rfl)]
    simp only
    rw [M.bind_ok (ha.exact (by decide))]
    rfl
  | cons c cs ih =>
    obtain ⟨j, rfl⟩ : ∃ j, m = j + 1 := ⟨m - 1, by simp at hm; omega⟩
    have e : moreLt (c :: cs) ++ rest = .punct '+' :: .punct '\'' :: .ident c :: (moreLt cs ++ rest) := by simp [moreLt]
    unfold lifetimeLoop
    rw [e, M.bind_ok (show nextLifetime _ = .ok (some b) _ from rfl)]
    simp only
    rw [M.bind_ok (exactPunct_pos _ _)]
    simp only [if_true]
    rw [ih (by simp at hm; omega)]
    simp

theorem nextGeneric_lifetime {k : Nat} {ty : DM (Option PType)} {l : Txt} {bs : List Txt} (hk : bs.length < k)
    {rest : List TT} (ha : After rest) :
    nextGeneric k ty ((RParam.lifetime l bs).toks ++ rest) = .ok (some (.lifetime l bs)) rest := by
  unfold nextGeneric
  cases bs with
  | nil =>
    simp only [RParam.toks, List.map_nil, boundToks, List.append_nil, List.cons_append, List.nil_append]
    rw [M.bind_ok (show peek _ = .ok (some (.punct '\'')) _ from rfl)]
    simp only [Char.reduceEq, if_false, if_true]
    rw [M.bind_ok (show (nextLifetime >>= expect) _ = .ok l rest from rfl)]
    rw [M.bind_ok (show (do if ← nextExactPunct ':' then lifetimeLoop k [] else pure [] : DM (List Txt)) rest = .ok [] rest by
      rw [M.bind_ok (ha.exact (by decide))]; rfl)]
    rfl
  | cons b bs =>
    have e : (RParam.lifetime l (b :: bs)).toks ++ rest =
        .punct '\'' :: .ident l :: .punct ':' :: .punct '\'' :: .ident b :: (moreLt bs ++ rest) := by
      simp only [RParam.toks, List.map_cons, boundToks]
      rw [sepBy_flatMap, List.flatMap_map]
      simp [moreLt]
    rw [e, M.bind_ok (show peek _ = .ok (some (.punct '\'')) _ from rfl)]
    simp only [Char.reduceEq, if_false, if_true]
    rw [M.bind_ok (show (nextLifetime >>= expect) _ = .ok l (.punct ':' :: .punct '\'' :: .ident b :: (moreLt bs ++ rest)) from rfl)]
    rw [M.bind_ok (show (do if ← nextExactPunct ':' then lifetimeLoop k [] else pure [] : DM (List Txt))
        (.punct ':' :: .punct '\'' :: .ident b :: (moreLt bs ++ rest)) = .ok (b :: bs) rest by
      rw [M.bind_ok (exactPunct_pos _ _)]
      simp only [if_true]
      rw [lifetimeLoop_reads (by simp at hk; omega) [] ha]; rfl)]
    rfl

theorem nextGeneric_reads {k : Nat} {ty : DM (Option PType)} {p : RParam} (hw : p.WF) (h : ReadsParam ty p)
    (hk : p.nBounds < k) {rest : List TT} (ha : After rest) :
    nextGeneric k ty (p.toks ++ rest) = .ok (some (pgen [] p)) rest := by
  cases p with
  | lifetime l bs => exact nextGeneric_lifetime hk ha
  | type n bs d =>
    rw [nextGeneric_type hw.1 hw.2.1 hw.2.2.2.1 hw.2.2.2.2.1 h hk ha]
    simp [pgen, wb]

/-! ### The parameter list -/

theorem after_comma (r : List TT) : After (.punct ',' :: r) := Or.inl rfl
theorem after_gt (r : List TT) : After (.punct '>' :: r) := Or.inr (Or.inl rfl)
theorem after_semi (r : List TT) : After (.punct ';' :: r) := Or.inr (Or.inr rfl)

theorem any_new {ps : List RParam} {p : RParam} (ws : List RWhere) (h : ∀ q ∈ ps, q.name ≠ p.name) :
    (ps.map (pgen ws)).any (fun x => x.full = (pgen ws p).full) = false := by
  rw [List.any_eq_false]
  intro x hx
  obtain ⟨q, hq, rfl⟩ := List.mem_map.1 hx
  simpa [pgen_full] using h q hq

/-- `, p, q` and an optional last comma. -/
def restToks (ps : List RParam) (trail : Bool) : List TT :=
  ps.flatMap (fun p => .punct ',' :: p.toks) ++ (if trail then [.punct ','] else [])

theorem listToks_cons {α : Type} (tk : α → List TT) (x : α) (xs : List α) (trail : Bool) :
    listToks ((x :: xs).map tk) trail = tk x ++ (xs.flatMap (fun y => .punct ',' :: tk y) ++ (if trail then [.punct ','] else [])) := by
  simp only [listToks, List.map_cons, List.isEmpty_cons, Bool.not_false, Bool.and_true]
  rw [sepBy_flatMap, List.flatMap_map, List.append_assoc]
  rfl

theorem genericsLoop_reads {k : Nat} {ty : DM (Option PType)} {done ps : List RParam} {p : RParam}
    (hr : ∀ q ∈ p :: ps, ∀ rest, After rest → nextGeneric k ty (q.toks ++ rest) = .ok (some (pgen [] q)) rest)
    (hd : ((done ++ p :: ps).map RParam.name).Pairwise (· ≠ ·)) (trail : Bool) {m : Nat} (hm : ps.length + 1 < m)
    (rest : List TT) :
    genericsLoop k ty m (done.map (pgen [])) (p.toks ++ (restToks ps trail ++ .punct '>' :: rest)) =
      .ok ((done ++ p :: ps).map (pgen [])) (.punct '>' :: rest) := by
  have hnew : ∀ q ∈ done, q.name ≠ p.name := by
    rw [List.map_append, List.pairwise_append] at hd
    exact fun q hq => hd.2.2 _ (List.mem_map_of_mem hq) _ (by simp)
  induction ps generalizing done p m with
  | nil =>
    obtain ⟨j, rfl⟩ : ∃ j, m = j + 2 := ⟨m - 2, by simp at hm; omega⟩
    conv => lhs; unfold genericsLoop
    cases trail with
    | false =>
      simp only [restToks, List.flatMap_nil, List.nil_append, Bool.false_eq_true, if_false]
      rw [M.bind_ok (hr p (by simp) _ (after_gt rest))]
      simp only [any_new [] hnew, Bool.false_eq_true, if_false]
      rw [M.bind_ok (show (pure (done.map (pgen []) ++ [pgen [] p]) : DM (List Generic)) (.punct '>' :: rest) = .ok _ (.punct '>' :: rest) from rfl)]
      rw [M.bind_ok (show nextExactPunct ',' (.punct '>' :: rest) = .ok false (.punct '>' :: rest) from rfl)]
      simp
    | true =>
      simp only [restToks, List.flatMap_nil, List.nil_append, if_true, List.cons_append]
      rw [M.bind_ok (hr p (by simp) _ (after_comma _))]
      simp only [any_new [] hnew, Bool.false_eq_true, if_false]
      rw [M.bind_ok (show (pure (done.map (pgen []) ++ [pgen [] p]) : DM (List Generic)) _ = .ok _ (.punct ',' :: .punct '>' :: rest) from rfl)]
      rw [M.bind_ok (exactPunct_pos _ _)]
      simp only [if_true]
      unfold genericsLoop
      rw [M.bind_ok (show nextGeneric k ty (.punct '>' :: rest) = .ok none (.punct '>' :: rest) from rfl)]
      simp
  | cons q qs ih =>
    obtain ⟨j, rfl⟩ : ∃ j, m = j + 1 := ⟨m - 1, by simp at hm; omega⟩
    have e : restToks (q :: qs) trail ++ .punct '>' :: rest = .punct ',' :: (q.toks ++ (restToks qs trail ++ .punct '>' :: rest)) := by
      simp [restToks]
    have e2 : done ++ p :: q :: qs = (done ++ [p]) ++ q :: qs := by simp
    conv => lhs; unfold genericsLoop
    rw [e, M.bind_ok (hr p (by simp) _ (after_comma _))]
    simp only [any_new [] hnew, Bool.false_eq_true, if_false]
    rw [M.bind_ok (show (pure (done.map (pgen []) ++ [pgen [] p]) : DM (List Generic)) _ = .ok _ (.punct ',' :: (q.toks ++ (restToks qs trail ++ .punct '>' :: rest))) from rfl)]
    rw [M.bind_ok (exactPunct_pos _ _)]
    simp only [if_true]
    have := ih (done := done ++ [p]) (p := q) (m := j) (fun x hx => hr x (List.mem_cons_of_mem _ hx))
      (by rw [← e2]; exact hd) (by simp at hm; omega)
      (by
        rw [e2, List.map_append, List.pairwise_append] at hd
        exact fun x hx => hd.2.2 _ (List.mem_map_of_mem hx) _ (by simp))
    rw [e2, ← this]
    simp

/-! ### The `where` clause -/

theorem wb_append (ws : List RWhere) (w : RWhere) (n : Txt) :
    wb (ws ++ [w]) n = wb ws n ++ (if w.name = n then w.bounds else []) := by
  simp only [wb, List.filter_append, List.flatMap_append]
  by_cases h : w.name = n <;> simp [h]

theorem pgen_other {ws : List RWhere} {w : RWhere} {p : RParam} (h : p.name ≠ w.name) :
    pgen (ws ++ [w]) p = pgen ws p := by
  cases p with
  | lifetime l bs => rfl
  | type n bs d =>
    have : ¬ w.name = n := fun e => h (by simp [RParam.name, e])
    simp [pgen, wb_append, this]

theorem mergeInto_pgen {ps : List RParam} (hd : (ps.map RParam.name).Pairwise (· ≠ ·)) {ws : List RWhere} {w : RWhere}
    (hm : ∃ n bs d, RParam.type n bs d ∈ ps ∧ n = w.name) (dflt : Option PType) :
    mergeInto (.generic w.name dflt (w.bounds.map ptype)) (ps.map (pgen ws)) = some (ps.map (pgen (ws ++ [w]))) := by
  induction ps with
  | nil => obtain ⟨n, bs, d, hx, _⟩ := hm; simp at hx
  | cons p ps ih =>
    obtain ⟨n, bs, d, hx, hn⟩ := hm
    rw [List.map_cons, List.pairwise_cons] at hd
    simp only [List.map_cons, mergeInto, pgen_full]
    by_cases hp : p.name = w.name
    · have hpt : p = .type n bs d := by
        rcases List.mem_cons.1 hx with h | h
        · exact h.symm
        · exact absurd (hp.trans hn.symm) (hd.1 _ (List.mem_map_of_mem (f := RParam.name) h))
      have hrest : ps.map (pgen (ws ++ [w])) = ps.map (pgen ws) := by
        refine List.map_congr_left fun q hq => pgen_other ?_
        rw [← hp]
        exact Ne.symm (hd.1 _ (List.mem_map_of_mem hq))
      subst hpt
      rw [if_pos (by simpa [Generic.full] using hp), hrest]
      simp only [pgen, mergeGeneric, Option.map_some, wb_append]
      rw [if_pos hn.symm]
      simp
    · rw [if_neg (by simpa [Generic.full] using hp)]
      have hx' : RParam.type n bs d ∈ ps := by
        rcases List.mem_cons.1 hx with h | h
        · exact absurd (show p.name = w.name by rw [← h]; exact hn) hp
        · exact h
      rw [ih hd.2 ⟨n, bs, d, hx', hn⟩, pgen_other hp]
      rfl

theorem any_old {ps : List RParam} {ws : List RWhere} {w : RWhere}
    (hm : ∃ n bs d, RParam.type n bs d ∈ ps ∧ n = w.name) (dflt : Option PType) (b : List PType) :
    (ps.map (pgen ws)).any (fun x => x.full = (Generic.generic w.name dflt b).full) = true := by
  obtain ⟨n, bs, d, hx, hn⟩ := hm
  rw [List.any_eq_true]
  exact ⟨pgen ws (.type n bs d), List.mem_map_of_mem hx, by simp [pgen, Generic.full, hn]⟩

/-- `, w, x` and an optional last comma. -/
def restWhere (ws : List RWhere) (trail : Bool) : List TT :=
  ws.flatMap (fun w => .punct ',' :: w.toks) ++ (if trail then [.punct ','] else [])

/-- What follows a `where` clause: the body of the item. -/
def AfterWhere (trail : Bool) : List TT → Prop
  | .punct c :: _ => c = ';' ∧ trail = false
  | .group .brace _ :: _ => True
  | _ => False

theorem AfterWhere.after {trail : Bool} {r : List TT} (h : AfterWhere trail r) : After r := by
  rcases r with _ | ⟨t, r⟩
  · exact h
  · cases t with
    | punct c => exact Or.inr (Or.inr h.1)
    | group d g => trivial
    | ident s => exact h
    | lit s => exact h

theorem AfterWhere.comma {trail : Bool} {r : List TT} (h : AfterWhere trail r) : nextExactPunct ',' r = .ok false r := by
  rcases r with _ | ⟨t, r⟩
  · rfl
  · cases t with
    | punct c => obtain ⟨rfl, _⟩ := h; rfl
    | _ => rfl

theorem whereLoop_reads {k : Nat} {ty : DM (Option PType)} {ps : List RParam} (hd : (ps.map RParam.name).Pairwise (· ≠ ·))
    {done ws : List RWhere} {w : RWhere}
    (hr : ∀ x ∈ w :: ws, ∀ rest, After rest →
      nextGeneric k ty (x.toks ++ rest) = .ok (some (.generic x.name none (x.bounds.map ptype))) rest)
    (hm' : ∀ x ∈ w :: ws, ∃ n bs d, RParam.type n bs d ∈ ps ∧ n = x.name)
    (trail : Bool) {m : Nat} (hm : ws.length + 1 < m) {rest : List TT} (ha : AfterWhere trail rest) :
    whereLoop k ty m (ps.map (pgen done)) (w.toks ++ (restWhere ws trail ++ rest)) =
      .ok (ps.map (pgen (done ++ w :: ws))) rest := by
  induction ws generalizing done w m with
  | nil =>
    obtain ⟨j, rfl⟩ : ∃ j, m = j + 2 := ⟨m - 2, by simp at hm; omega⟩
    conv => lhs; unfold whereLoop
    cases trail with
    | false =>
      simp only [restWhere, List.flatMap_nil, List.nil_append, Bool.false_eq_true, if_false]
      rw [M.bind_ok (hr w (by simp) _ ha.after)]
      simp only [any_old (hm' w (by simp)), if_true, mergeInto_pgen hd (hm' w (by simp))]
      rw [M.bind_ok (show expect (some (ps.map (pgen (done ++ [w])))) rest = .ok _ rest from rfl)]
      rw [M.bind_ok ha.comma]
      rfl
    | true =>
      simp only [restWhere, List.flatMap_nil, List.nil_append, if_true, List.cons_append]
      rw [M.bind_ok (hr w (by simp) _ (after_comma _))]
      simp only [any_old (hm' w (by simp)), if_true, mergeInto_pgen hd (hm' w (by simp))]
      rw [M.bind_ok (show expect (some (ps.map (pgen (done ++ [w])))) _ = .ok _ (.punct ',' :: rest) from rfl)]
      rw [M.bind_ok (exactPunct_pos _ _)]
      simp only [if_true]
      rcases rest with _ | ⟨t, rest⟩
      · exact absurd ha id
      · cases t with
        | punct c => exact absurd ha.2 (by simp)
        | group d g =>
          cases d with
          | brace => rfl
          | _ => exact absurd ha id
        | ident s => exact absurd ha id
        | lit s => exact absurd ha id
  | cons x xs ih =>
    obtain ⟨j, rfl⟩ : ∃ j, m = j + 1 := ⟨m - 1, by simp at hm; omega⟩
    have e : restWhere (x :: xs) trail ++ rest = .punct ',' :: (x.toks ++ (restWhere xs trail ++ rest)) := by
      simp [restWhere]
    conv => lhs; unfold whereLoop
    rw [e, M.bind_ok (hr w (by simp) _ (after_comma _))]
    simp only [any_old (hm' w (by simp)), if_true, mergeInto_pgen hd (hm' w (by simp))]
    rw [M.bind_ok (show expect (some (ps.map (pgen (done ++ [w])))) _ = .ok _ (.punct ',' :: (x.toks ++ (restWhere xs trail ++ rest))) from rfl)]
    rw [M.bind_ok (exactPunct_pos _ _)]
    simp only [if_true]
    rw [M.bind_ok (show nextExactPunct '{' (x.toks ++ (restWhere xs trail ++ rest)) = .ok false (x.toks ++ (restWhere xs trail ++ rest)) from rfl)]
    simp only [Bool.false_eq_true, if_false]
    rw [ih (done := done ++ [w]) (fun y hy => hr y (List.mem_cons_of_mem _ hy)) (fun y hy => hm' y (List.mem_cons_of_mem _ hy))
      (by simp at hm; omega)]
    simp

/-! ### `get_all_bounds` -/

/-- What the type parser must be able to read for generics. -/
structure ReadsGenerics (k : Nat) (ty : DM (Option PType)) (g : RGenerics) : Prop where
  params : ∀ p ∈ g.params, ReadsParam ty p ∧ p.nBounds < k
  wheres : ∀ w ∈ g.wheres, ReadsParam ty (.type w.name w.bounds none) ∧ w.bounds.length < k
  len : g.params.length + 1 < k ∧ g.wheres.length + 1 < k

/-- The parsed generics. -/
def pgenerics (g : RGenerics) : List Generic := g.params.map (pgen g.wheres)

theorem getAllBounds_reads {k : Nat} {ty : DM (Option PType)} {g : RGenerics} (hw : g.WF) (h : ReadsGenerics k ty g)
    {rest : List TT} (ha : if g.wheres = [] then After rest ∧ (∀ r, rest ≠ .punct '>' :: r) else AfterWhere g.wtrail rest) :
    getAllBounds k ty (g.toks ++ rest) = .ok (pgenerics g) rest := by
  obtain ⟨params, wheres, ptrail, wtrail⟩ := g
  obtain ⟨hp, hd, hwh⟩ := hw
  simp only at hp hd hwh ha
  have hafter : After rest := by
    split at ha
    · exact ha.1
    · exact ha.after
  cases params with
  | nil =>
    have : wheres = [] := by
      cases wheres with
      | nil => rfl
      | cons w ws => obtain ⟨n, bs, d, hx, _⟩ := (hwh w (by simp)).2.2.2; simp at hx
    subst this
    simp only [RGenerics.toks, List.nil_append, pgenerics, List.map_nil]
    rcases rest with _ | ⟨t, rest⟩
    · exact absurd hafter id
    · cases t with
      | punct c => rcases hafter with rfl | rfl | rfl <;> rfl
      | group d g => cases d <;> rfl
      | ident s => exact absurd hafter id
      | lit s => exact absurd hafter id
  | cons p ps =>
    let wt : List TT := match wheres with
      | [] => []
      | w :: ws => [.ident "where".toList] ++ listToks ((w :: ws).map RWhere.toks) wtrail
    have e : (RGenerics.mk (p :: ps) wheres ptrail wtrail).toks ++ rest =
        .punct '<' :: (p.toks ++ (restToks ps ptrail ++ .punct '>' :: (wt ++ rest))) := by
      cases wheres <;> simp only [RGenerics.toks, listToks_cons, wt] <;> simp [restToks]
    rw [e]
    unfold getAllBounds
    rw [M.bind_ok (show peek _ = .ok (some (.punct '<')) _ from rfl),
      if_pos (show Option.map TT.text (some (TT.punct '<')) = some "<".toList from rfl)]
    rw [M.bind_ok (show next (.punct '<' :: (p.toks ++ (restToks ps ptrail ++ .punct '>' :: (wt ++ rest)))) =
      .ok _ (p.toks ++ (restToks ps ptrail ++ .punct '>' :: (wt ++ rest))) from rfl)]
    have hl := genericsLoop_reads (k := k) (ty := ty) (done := []) (ps := ps) (p := p)
      (fun q hq r hr => nextGeneric_reads (hp q hq) (h.params q hq).1 (h.params q hq).2 hr) (by simpa using hd) ptrail
      (m := k) (by have := h.len.1; simp at this; omega) (wt ++ rest)
    rw [List.map_nil, List.nil_append] at hl
    rw [M.bind_ok hl, M.bind_ok (exactPunct_pos _ _)]
    rw [M.bind_ok (show assert true (wt ++ rest) = .ok () (wt ++ rest) from rfl)]
    cases wheres with
    | nil =>
      simp only [wt, List.nil_append, pgenerics]
      rcases rest with _ | ⟨t, rest⟩
      · exact absurd hafter id
      · cases t with
        | punct c => rcases hafter with rfl | rfl | rfl <;> rfl
        | group d g => cases d <;> rfl
        | ident s => exact absurd hafter id
        | lit s => exact absurd hafter id
    | cons w ws =>
      have e2 : wt ++ rest = .ident "where".toList :: (w.toks ++ (restWhere ws wtrail ++ rest)) := by
        simp only [wt]
        rw [listToks_cons]
        simp [restWhere]
      rw [e2, M.bind_ok (show peek _ = .ok (some (.ident "where".toList)) _ from rfl)]
      simp only
      rw [if_pos (show TT.text (.ident "where".toList) = "where".toList from rfl)]
      rw [M.bind_ok (show next (.ident "where".toList :: (w.toks ++ (restWhere ws wtrail ++ rest))) =
        .ok _ (w.toks ++ (restWhere ws wtrail ++ rest)) from rfl)]
      have hwl := whereLoop_reads (k := k) (ty := ty) hd (done := []) (ws := ws) (w := w)
        (fun x hx r hr => by
          obtain ⟨n, bs, d, hmem, hn⟩ := (hwh x hx).2.2.2
          have hpw : RParam.WF (.type n bs d) := hp _ hmem
          have := nextGeneric_type (k := k) (ty := ty) (n := x.name) (bs := x.bounds) (d := none) (hn ▸ hpw.1) (hn ▸ hpw.2.1)
            (hwh x hx).2.1 (hwh x hx).2.2.1 (h.wheres x hx).1 (h.wheres x hx).2 hr
          simpa [RWhere.toks, RParam.toks] using this)
        (fun x hx => (hwh x hx).2.2.2) wtrail (m := k) (by have := h.len.2; simp at this; omega) (by simpa using ha)
      rw [hwl]
      rfl

theorem readsParam_ev {p : RParam} (h : p.WF) : Ev fun n => ReadsParam (nextType n) p := by
  cases p with
  | lifetime l bs => exact ⟨0, fun _ _ => trivial⟩
  | type nm bs d =>
    have h1 : Ev fun n => Reads (nextType n) (.path false [nm] []) := reads_ev ⟨h.1, trivial⟩
    have h2 : Ev fun n => ∀ b ∈ bs, Reads (nextType n) b :=
      Ev.list bs fun b hb => reads_ev ((WFList_iff bs).1 h.2.2.2.1 b hb)
    have h3 : Ev fun n => ∀ t ∈ d, Reads (nextType n) t := by
      cases d with
      | none => exact ⟨0, fun _ _ t ht => absurd ht (by simp)⟩
      | some t =>
        refine (reads_ev (h.2.2.2.2.2 t rfl)).mono fun n hn u hu => ?_
        obtain rfl : t = u := by simpa using hu
        exact hn
    exact ((h1.and h2).and h3).mono fun n h => ⟨h.1.1, h.1.2, h.2⟩

theorem readsGenerics_ev {g : RGenerics} (h : g.WF) : Ev fun n => ReadsGenerics n (nextType n) g := by
  have h1 : Ev fun n => ∀ p ∈ g.params, ReadsParam (nextType n) p ∧ p.nBounds < n :=
    Ev.list _ fun p hp => (readsParam_ev (h.1 p hp)).and (Ev.gt _)
  have h2 : Ev fun n => ∀ w ∈ g.wheres, ReadsParam (nextType n) (.type w.name w.bounds none) ∧ w.bounds.length < n := by
    refine Ev.list _ fun w hw => Ev.and ?_ (Ev.gt _)
    obtain ⟨n, bs, d, hmem, hn⟩ := (h.2.2 w hw).2.2.2
    have hpw : RParam.WF (.type n bs d) := h.1 _ hmem
    exact readsParam_ev (p := .type w.name w.bounds none) ⟨hn ▸ hpw.1, hn ▸ hpw.2.1, hn ▸ hpw.2.2.1, (h.2.2 w hw).2.1,
      (h.2.2 w hw).2.2.1, by simp⟩
  exact ((h1.and h2).and ((Ev.gt _).and (Ev.gt _))).mono fun n h => ⟨h.1.1, h.1.2, h.2.1, h.2.2⟩

/-! ### The headers -/

theorem sepBy_append_last {α : Type} (sep : List α) (l : List (List α)) (hl : l ≠ []) (x : List α) :
    sepBy sep (l ++ [x]) = sepBy sep l ++ sep ++ x := by
  induction l with
  | nil => exact absurd rfl hl
  | cons a l ih =>
    cases l with
    | nil => simp [sepBy]
    | cons b l =>
      have := ih (by simp)
      simp only [List.cons_append] at this ⊢
      simp [sepBy, this]

theorem sepBy_ne_nil {α : Type} (sep : List α) {l : List (List α)} {a : List α} (ha : a ≠ []) : sepBy sep (a :: l) ≠ [] := by
  cases l <;> simp [sepBy, ha]

theorem bound_text_ne {b : RTy} (hb : b.WF) (hi : b.isBound) : b.text ≠ [] := by
  cases b with
  | path glob segs args =>
    have := segText_ne hb.1 glob
    cases args <;> cases glob <;> simp_all [RTy.text, pref]
  | lifetime l => simp [RTy.text]
  | fnTy k args => simp [RTy.text]
  | fnRet k args r => simp [RTy.text]
  | assoc glob segs name t => simp [RTy.text]
  | _ => simp [RTy.isBound] at hi

theorem getBounds_type {bs : List RTy} (h : WFList bs) (n d) :
    (Generic.generic n d (bs.map ptype)).getBounds = bs.map RTy.text := by
  simp only [Generic.getBounds]
  rw [← ptypes_eq, full_ptypes bs h, textList_eq]

theorem param_header {g : RGenerics} (hw : g.WF) {p : RParam} (hp : p ∈ g.params) (bound : Txt) (hb : bound ≠ []) :
    (pgen g.wheres p).fullWithConst [bound] ++ ", ".toList = g.paramText bound p := by
  cases p with
  | lifetime l bs =>
    cases bs with
    | nil => simp [pgen, Generic.fullWithConst, Generic.getBounds, join, Generic.constPrefix, Generic.lifetimePrefix, Generic.full, RGenerics.paramText]
    | cons b bs =>
      have hne : (sepBy " + ".toList ((b :: bs).map fun b => "'".toList ++ b)).isEmpty = false := by
        rw [List.isEmpty_eq_false_iff, List.map_cons]
        exact sepBy_ne_nil _ (by simp)
      simp only [pgen, Generic.fullWithConst, Generic.getBounds, join_eq, Generic.constPrefix, Generic.lifetimePrefix,
        Generic.full, RGenerics.paramText]
      rw [hne]
      simp
  | type n bs d =>
    have hpw := hw.1 _ hp
    have hwb : ∀ b ∈ wb g.wheres n, b.WF ∧ b.isBound := by
      intro b hb
      obtain ⟨w, hwm, hbw⟩ := List.mem_flatMap.1 hb
      have hwm' := (List.mem_filter.1 hwm).1
      exact ⟨(WFList_iff _).1 (hw.2.2 w hwm').2.1 b hbw, (hw.2.2 w hwm').2.2.1 b hbw⟩
    have hall : ∀ b ∈ bs ++ wb g.wheres n, b.WF ∧ b.isBound := by
      intro b hb
      rcases List.mem_append.1 hb with hb | hb
      · exact ⟨(WFList_iff _).1 hpw.2.2.2.1 b hb, hpw.2.2.2.2.1 b hb⟩
      · exact hwb b hb
    have hgb := getBounds_type (bs := bs ++ wb g.wheres n) ((WFList_iff _).2 fun b hb => (hall b hb).1) n (d.map ptype)
    simp only [pgen, Generic.fullWithConst, hgb, join_eq, Generic.constPrefix, Generic.lifetimePrefix, Generic.full, RGenerics.paramText]
    rw [show g.whereBounds n = wb g.wheres n from rfl]
    cases hl : bs ++ wb g.wheres n with
    | nil =>
      have : (sepBy " + ".toList [bound]).isEmpty = false := by simp [sepBy, hb]
      simp only [List.map_nil, List.nil_append]
      simp [sepBy, hb]
    | cons b cs =>
      have h1 : (sepBy " + ".toList ((b :: cs).map RTy.text)).isEmpty = false := by
        rw [List.isEmpty_eq_false_iff, List.map_cons]
        refine sepBy_ne_nil _ (bound_text_ne (hall b ?_).1 (hall b ?_).2) <;> simp [hl]
      simp only [h1, List.isEmpty_cons, Bool.false_eq_true, if_false]
      rw [sepBy_append_last _ _ (by simp)]
      have h2 : (sepBy " + ".toList ((b :: cs).map RTy.text) ++ " + ".toList ++ sepBy " + ".toList [bound]).isEmpty = false := by
        rw [List.isEmpty_eq_false_iff]; simp [hb]
      rw [h2]
      simp [sepBy]

theorem param_arg {ws : List RWhere} (p : RParam) : (pgen ws p).identOnly ++ ", ".toList = p.argText := by
  cases p <;> simp [pgen, Generic.identOnly, Generic.lifetimePrefix, Generic.full, RParam.argText]

theorem param_notSelf {ws : List RWhere} {p : RParam} (h : p.WF) : (pgen ws p).identOnly ≠ "Self".toList := by
  cases p with
  | lifetime l bs => simp [pgen, Generic.identOnly, Generic.lifetimePrefix]
  | type n bs d => simpa [pgen, Generic.identOnly, Generic.lifetimePrefix, Generic.full] using h.2.2.1

theorem genericsRead {g : RGenerics} (h : g.WF) : GenericsRead g (pgenerics g) := by
  intro trait krate
  unfold boundsStrings RGenerics.header pgenerics
  cases hp : g.params with
  | nil => rfl
  | cons p ps =>
    rw [← hp]
    have hne : (g.params.map (pgen g.wheres)).isEmpty = false := by simp [hp]
    have hne' : g.params.isEmpty = false := by simp [hp]
    rw [hne, hne']
    simp only [Bool.false_eq_true, if_false]
    have hf : (g.params.map (pgen g.wheres)).filter (fun g => g.identOnly ≠ "Self".toList) = g.params.map (pgen g.wheres) := by
      rw [List.filter_eq_self]
      intro x hx
      obtain ⟨q, hq, rfl⟩ := List.mem_map.1 hx
      simpa using param_notSelf (h.1 q hq)
    rw [hf]
    simp only [List.map_map, List.flatMap]
    refine Prod.ext ?_ ?_
    · simp only
      congr 3
      refine List.map_congr_left fun q hq => ?_
      exact param_header h hq _ (by simp)
    · simp only
      congr 3
      refine List.map_congr_left fun q hq => ?_
      exact param_arg q

end NS.Derive
