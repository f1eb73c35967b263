import Verif.Spec.TomlSame
import Verif.Lemmas.TomlParse
/-! # Rearranging documents -/
namespace NS

theorem lastAssigned_app (k : List Char) (as bs : List (List Char × Toml)) :
    lastAssigned k (as ++ bs) = (lastAssigned k bs).or (lastAssigned k as) := by
  simp only [lastAssigned, List.reverse_append, List.find?_append]
  cases List.find? (fun a => a.1 == k) bs.reverse <;> simp

theorem lastAssigned_cons (k : List Char) (q : List Char) (v : Toml) (bs : List (List Char × Toml)) :
    lastAssigned k ((q, v) :: bs) = (lastAssigned k bs).or (if q = k then some v else none) := by
  rw [show (q, v) :: bs = [(q, v)] ++ bs from rfl, lastAssigned_app]
  congr 1
  rw [show [(q, v)] = [] ++ [(q, v)] from rfl, lastAssigned_append]
  rfl

theorem SameAssigned.symm {as bs} (h : SameAssigned as bs) : SameAssigned bs as := fun k => (h k).symm

theorem SameAssigned.before {as bs} (h : SameAssigned as bs) (cs) : SameAssigned (cs ++ as) (cs ++ bs) := fun k => by
  rw [lastAssigned_app, lastAssigned_app, h k]

theorem SameAssigned.after {as bs} (h : SameAssigned as bs) (cs) : SameAssigned (as ++ cs) (bs ++ cs) := fun k => by
  rw [lastAssigned_app, lastAssigned_app, h k]

theorem matching_symm {α : Type} {R : α → α → Prop} (hR : ∀ a b, R a b → R b a) {as bs : List α} (h : Matching R as bs) :
    Matching R bs as := by
  induction h with
  | nil => exact .nil
  | cons h _ ih => exact .cons (hR _ _ h) ih

theorem matching_refl {α : Type} {R : α → α → Prop} (hR : ∀ a, R a a) (as : List α) : Matching R as as := by
  induction as with
  | nil => exact .nil
  | cons a as ih => exact .cons (hR a) ih

theorem matching_append {α β : Type} {R : α → β → Prop} {as as' : List α} {bs bs' : List β} (h : Matching R as bs)
    (h' : Matching R as' bs') : Matching R (as ++ as') (bs ++ bs') := by
  induction h with
  | nil => exact h'
  | cons h _ ih => exact .cons h ih

theorem SameDoc.symm {doc doc'} (h : SameDoc doc doc') : SameDoc doc' doc :=
  ⟨h.1.symm, fun n => matching_symm (fun _ _ h => h.symm) (h.2 n)⟩

theorem Holding.same {m as bs} (h : Holding m as) (hs : SameAssigned as bs) : Holding m bs :=
  ⟨h.1, fun k v => by rw [h.2, hs k]⟩

theorem matching_holding {ts : List TMap} {as bs : List (List Char × List (List Char × Toml))}
    (h : Matching Holding ts (as.map Prod.snd)) (hs : Matching (fun t t' => SameAssigned t.2 t'.2) as bs) :
    Matching Holding ts (bs.map Prod.snd) := by
  induction hs generalizing ts with
  | nil => exact h
  | cons h1 _ ih =>
    cases h with
    | cons g1 g2 => exact .cons (g1.same h1) (ih g2)

theorem tables_name {doc : List Stmt} {k : List Char} :
    k ∈ (tables doc).map Prod.fst ↔ (tables doc).filter (fun t => t.1 == k) ≠ [] := by
  simp only [List.mem_map, ne_eq, List.filter_eq_nil_iff, Classical.not_forall, Classical.not_not, beq_iff_eq, exists_prop]

theorem matching_nil_iff {α β : Type} {R : α → β → Prop} {as : List α} {bs : List β} (h : Matching R as bs) :
    as ≠ [] ↔ bs ≠ [] := by
  cases h <;> simp

theorem SameDoc.names {doc doc'} (h : SameDoc doc doc') (k : List Char) :
    k ∈ (tables doc).map Prod.fst ↔ k ∈ (tables doc').map Prod.fst := by
  rw [tables_name, tables_name]
  exact matching_nil_iff (h.2 k)

theorem Stands.same {doc doc' m} (h : Stands doc m) (hs : SameDoc doc doc') : Stands doc' m := by
  refine ⟨h.1, fun k => ⟨fun hk v => ?_, fun hk => ?_⟩⟩
  · rw [(h.2 k).1 (fun hk' => hk ((hs.names k).1 hk')) v, hs.1 k]
  · obtain ⟨ts, h1, h2⟩ := (h.2 k).2 ((hs.names k).2 hk)
    exact ⟨ts, h1, matching_holding h2 (hs.2 k)⟩

theorem clashes_iff {doc : List Stmt} :
    Clashes doc ↔ ∃ n, n ∈ (tables doc).map Prod.fst ∧ lastAssigned n (assigns [] doc) ≠ none := by
  constructor
  · rintro ⟨n, as, h1, v, h2⟩
    refine ⟨n, List.mem_map.2 ⟨_, h1, rfl⟩, fun h => lastAssigned_none.1 h v h2⟩
  · rintro ⟨n, h1, h2⟩
    obtain ⟨⟨n', as⟩, h3, rfl⟩ := List.mem_map.1 h1
    obtain ⟨v, hv⟩ := Option.ne_none_iff_exists'.1 h2
    exact ⟨n', as, h3, v, lastAssigned_mem hv⟩

theorem SameDoc.clashes {doc doc'} (h : SameDoc doc doc') : Clashes doc ↔ Clashes doc' := by
  rw [clashes_iff, clashes_iff]
  constructor <;> rintro ⟨n, h1, h2⟩
  · exact ⟨n, (h.names n).1 h1, by rw [← h.1 n]; exact h2⟩
  · exact ⟨n, (h.names n).2 h1, by rw [h.1 n]; exact h2⟩

/-! ## Rearranging statements -/

theorem filter_matching {as bs : List (List Char × List (List Char × Toml))} (n : List Char)
    (h : Matching (fun t t' => t.1 = t'.1 ∧ SameAssigned t.2 t'.2) as bs) :
    Matching (fun t t' => SameAssigned t.2 t'.2) (as.filter fun t => t.1 == n) (bs.filter fun t => t.1 == n) := by
  induction h with
  | nil => exact .nil
  | @cons a b as bs h1 _ ih =>
    simp only [List.filter_cons, h1.1]
    split
    · exact .cons h1.2 ih
    · exact ih

theorem tables_none {x : List Stmt} (h : NoTables x) (r : List Stmt) : tables (x ++ r) = tables r := by
  induction x with
  | nil => rfl
  | cons s x ih =>
    have ih := ih fun n hn => h n (List.mem_cons_of_mem _ hn)
    cases s with
    | table n => exact absurd List.mem_cons_self (h n)
    | sect s => simpa [tables] using ih
    | assign k v => simpa [tables] using ih

/-- Statements without `[[..]]` headers, exchanged for others that assign the same with what follows. -/
theorem same_mid {x y r : List Stmt} (hx : NoTables x) (hy : NoTables y)
    (h : ∀ s, SameAssigned (assigns s (x ++ r)) (assigns s (y ++ r))) (a : List Stmt) :
    (∀ s, SameAssigned (assigns s (a ++ (x ++ r))) (assigns s (a ++ (y ++ r)))) ∧
    Matching (fun t t' => t.1 = t'.1 ∧ SameAssigned t.2 t'.2) (tables (a ++ (x ++ r))) (tables (a ++ (y ++ r))) := by
  induction a with
  | nil =>
    refine ⟨h, ?_⟩
    simp only [List.nil_append, tables_none hx, tables_none hy]
    exact matching_refl (fun _ => ⟨rfl, fun _ => rfl⟩) _
  | cons s a ih =>
    cases s with
    | table n => exact ⟨fun _ _ => rfl, .cons ⟨rfl, ih.1 _⟩ ih.2⟩
    | sect s => exact ⟨fun s' => ih.1 s, ih.2⟩
    | assign k v => exact ⟨fun s' => (ih.1 s').before [_], ih.2⟩

theorem SameDoc.mid {x y r : List Stmt} (hx : NoTables x) (hy : NoTables y)
    (h : ∀ s, SameAssigned (assigns s (x ++ r)) (assigns s (y ++ r))) (a : List Stmt) :
    SameDoc (a ++ (x ++ r)) (a ++ (y ++ r)) :=
  ⟨(same_mid hx hy h a).1 [], fun n => filter_matching n (same_mid hx hy h a).2⟩

theorem assigns_header {r : List Stmt} (h : BeginsWithHeader r) (s s' : List Char) : assigns s r = assigns s' r := by
  cases r with
  | nil => rfl
  | cons x r =>
    cases x with
    | assign k v => exact absurd rfl (h k v)
    | sect s => rfl
    | table n => rfl

theorem assigns_append {x r : List Stmt} (hx : NoTables x) (h : BeginsWithHeader r) (s s' : List Char) :
    assigns s (x ++ r) = assigns s x ++ assigns s' r := by
  induction x generalizing s with
  | nil => exact assigns_header h s s'
  | cons t x ih =>
    have ih := ih fun n hn => hx n (List.mem_cons_of_mem _ hn)
    cases t with
    | table n => exact absurd List.mem_cons_self (hx n)
    | sect s => exact ih s
    | assign k v => simp [assigns, ih]

theorem same_swap {as bs : List (List Char × Toml)} (h : ∀ k, lastAssigned k as = none ∨ lastAssigned k bs = none)
    (cs : List (List Char × Toml)) : SameAssigned (as ++ (bs ++ cs)) (bs ++ (as ++ cs)) := fun k => by
  simp only [lastAssigned_app]
  rcases h k with h | h <;> simp [h]

/-! ## Joining texts -/

theorem TLayout.app {w w'} (h : TLayout w) (h' : TLayout w') : TLayout (w ++ w') := by
  induction h with
  | nil => exact h'
  | space hc _ ih => exact .space hc ih
  | comment h1 h2 _ ih => rw [List.cons_append, List.append_assoc]; exact .comment h1 h2 ih

theorem TLayout.appEnd {w w'} (h : TLayout w) (h' : TLayoutEnd w') : TLayoutEnd (w ++ w') := by
  rcases h' with h' | ⟨a, b, ha, h1, h2, rfl⟩
  · exact .inl (h.app h')
  · exact .inr ⟨w ++ a, b, h.app ha, h1, h2, by simp⟩

theorem TLayoutEnd.nl {w} (h : TLayoutEnd w) : TLayout (w ++ ['\n']) := by
  have hn : TLayout ['\n'] := (TLayout.space (.inr (.inl rfl)) .nil)
  rcases h with h | ⟨a, b, ha, h1, h2, rfl⟩
  · exact h.app hn
  · rw [show a ++ '#' :: b ++ ['\n'] = a ++ '#' :: (b ++ '\n' :: []) by simp]
    exact ha.app (.comment h1 h2 .nil)

theorem NotBefore.nl {p : Char → Prop} {r : List Char} (h : NotBefore p r) (hp : ¬ p '\n') (x : List Char) :
    NotBefore p (r ++ '\n' :: x) := by
  cases r with
  | nil => intro c hc; injection hc with hc; subst hc; exact hp
  | cons a r => exact fun c hc => h c hc

theorem Terminated.nl {r : List Char} (h : Terminated r) (x : List Char) : Terminated (r ++ '\n' :: x) := by
  cases r with
  | nil => intro c hc; injection hc with hc; subst hc; simp
  | cons a r => exact fun c hc => h c hc

theorem nl_not_bare : ¬ Bare '\n' := by
  rintro ⟨r, hr, h1, h2⟩
  have : ∀ r ∈ bareRanges, ¬ r.1 ≤ 10 := by decide
  exact this r hr h1

theorem nl_not_digit : ¬ Digit '\n' := by unfold Digit; decide

theorem TSpell.nl {o : TomlOps} {s r : List Char} {t : TTok} (h : TSpell o s r t) (x : List Char) :
    TSpell o s (r ++ '\n' :: x) t ∨ (r = [] ∧ TSpell o (s ++ ['\n']) x t) := by
  cases h with
  | comma => exact .inl .comma
  | equals => exact .inl .equals
  | blockOpen => exact .inl .blockOpen
  | blockClose => exact .inl .blockClose
  | str h1 h2 => exact .inl (.str h1 h2)
  | long h1 h2 => exact .inl (.long h1 h2)
  | longEnd h1 => exact .inr ⟨rfl, by simpa using TSpell.long (o := o) (r := x) (c := '\n') h1 (.inr (.inl rfl))⟩
  | ident h1 h2 h3 h4 h5 h6 => exact .inl (.ident h1 h2 h3 h4 h5 (h6.nl x))
  | numIdent h1 h2 h3 h4 h5 h6 h7 h8 => exact .inl (.numIdent h1 h2 h3 h4 h5 h6 h7 (h8.nl x))
  | word h1 h2 => exact .inl (.word h1 (h2.nl x))
  | pos h1 h2 h3 h4 =>
    exact .inl (.pos h1 h2 h3 (h4.nl (by rintro (h | h); exact nl_not_bare h; revert h; decide) x))
  | neg h1 h2 h3 => exact .inl (.neg h1 h2 (h3.nl (by rintro (h | h); exact nl_not_bare h; revert h; decide) x))
  | float h1 h2 h3 h4 h5 => exact .inl (.float h1 h2 h3 h4 (h5.nl (by unfold Digit; decide) x))
  | signedInf h1 h2 => exact .inl (.signedInf h1 (h2.nl x))
  | signedNan h1 h2 => exact .inl (.signedNan h1 (h2.nl x))
  | date h1 h2 h3 h4 => exact .inl (.date h1 h2 h3 (h4.nl (by unfold Digit; decide) x))

theorem TSpell.ne_nil {o : TomlOps} {s r : List Char} {t : TTok} (h : TSpell o s r t) : s ≠ [] := by
  cases h with
  | word h1 _ => intro e; subst e; revert h1; simp [tomlWords]
  | pos h1 h2 _ _ => obtain ⟨⟨d, r, rfl, _⟩, _⟩ := h2; simp
  | numIdent => simp
  | float => simp
  | date => simp
  | _ => simp

theorem TDoc.of_nil {o : TomlOps} {ts : List TTok} {tail : List Char} (h : TDoc o ts [] tail) : ts = [] := by
  generalize he : ([] : List Char) = txt at h
  cases h with
  | nil => rfl
  | cons h1 h2 h3 =>
    have := congrArg List.length he
    have hs := List.length_pos_iff.2 h2.ne_nil
    simp at this
    omega

/-- A line break between two texts keeps them apart. -/
theorem TDoc.join {o : TomlOps} {ts ts' : List TTok} {txt txt' w w' : List Char} (h : TDoc o ts txt w) (hw : TLayoutEnd w)
    (h' : TDoc o ts' txt' w') (hw' : TLayoutEnd w') :
    ∃ w'', TLayoutEnd w'' ∧ TDoc o (ts ++ ts') (txt ++ '\n' :: txt') w'' := by
  induction h with
  | @nil tail =>
    cases h' with
    | nil =>
      refine ⟨_, ?_, .nil⟩
      rw [List.append_cons]
      exact hw.nl.appEnd hw'
    | @cons t ts' w1 s r _ h1 h2 h3 =>
      refine ⟨w', hw', ?_⟩
      rw [show tail ++ '\n' :: (w1 ++ s ++ r) = (tail ++ ['\n'] ++ w1) ++ s ++ r by simp]
      exact .cons (hw.nl.app h1) h2 h3
  | @cons t ts w1 s r tail h1 h2 h3 ih =>
    rcases h2.nl txt' with h4 | ⟨rfl, h4⟩
    · obtain ⟨w'', h5, h6⟩ := ih hw
      refine ⟨w'', h5, ?_⟩
      rw [show w1 ++ s ++ r ++ '\n' :: txt' = w1 ++ s ++ (r ++ '\n' :: txt') by simp]
      exact .cons h1 h4 h6
    · cases h3.of_nil
      refine ⟨w', hw', ?_⟩
      rw [show w1 ++ s ++ [] ++ '\n' :: txt' = w1 ++ (s ++ ['\n']) ++ txt' by simp]
      exact .cons h1 h4 h'

theorem TStmts.app {o : TomlOps} {xs ys : List Stmt} {ts us : List TTok} (h : TStmts o xs ts) (h' : TStmts o ys us) :
    TStmts o (xs ++ ys) (ts ++ us) := by
  induction h with
  | nil => exact h'
  | cons h1 _ ih => rw [List.cons_append, List.append_assoc]; exact .cons h1 ih

theorem TText.join {o : TomlOps} {doc doc' : List Stmt} {txt txt' : List Char} (h : TText o doc txt) (h' : TText o doc' txt') :
    TText o (doc ++ doc') (txt ++ '\n' :: txt') := by
  obtain ⟨ts, h1, w, h2, h3⟩ := h
  obtain ⟨ts', h1', w', h2', h3'⟩ := h'
  obtain ⟨w'', h4, h5⟩ := h3.join h2 h3' h2'
  exact ⟨_, h1.app h1', w'', h4, h5⟩

end NS
