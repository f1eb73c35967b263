import Verif.Spec.WeightToml
import Verif.Lemmas.TomlUnique
namespace NS
variable {o : TomlOps}

/-- What a token can contribute. -/
def TTok.extent : TTok → Nat
  | .str s => s.length + 1
  | .date s => s.length
  | _ => 1

def extents : List TTok → Nat
  | [] => 0
  | t :: ts => t.extent + extents ts

theorem extents_append (a b : List TTok) : extents (a ++ b) = extents a + extents b := by
  induction a with
  | nil => simp [extents]
  | cons x a ih => simp only [List.cons_append, extents, ih]; omega

theorem TBody.length_le {b s : List Char} (h : TBody b s) : s.length ≤ b.length := by
  induction h with
  | nil => simp
  | plain _ _ _ _ ih => simp only [List.length_cons]; omega
  | esc _ ih => simp only [List.length_cons]; omega

theorem TLongBody.length_le {b s : List Char} (h : TLongBody b s) : s.length ≤ b.length := by
  induction h with
  | nil => simp
  | plain _ _ _ _ ih => simp only [List.length_cons]; omega
  | esc _ ih => simp only [List.length_cons]; omega
  | quotes _ _ _ _ ih => simp only [List.length_append, List.length_cons, List.length_replicate]; omega

theorem TLead.length_le {a n r : List Char} (h : TLead a n r) : n.length ≤ a.length := by
  cases h <;> simp

theorem ungrouped_length (g : List Char) : (ungrouped g).length ≤ g.length := List.length_filter_le ..

theorem TWordIs.extent {w : List Char} {t : TTok} (h : TWordIs w t) : t.extent = 1 := by
  cases h with
  | word h =>
    simp only [tomlWords, List.mem_cons, List.not_mem_nil, Prod.mk.injEq, or_false] at h
    rcases h with h | h | h | h <;> (obtain ⟨-, rfl⟩ := h; rfl)
  | name => rfl

theorem TSpells.extent_le {s r : List Char} {t : TTok} (h : TSpells o s r t) : t.extent ≤ s.length := by
  cases h with
  | comma | equals | blockOpen | blockClose => simp [TTok.extent]
  | str _ _ hb => have := hb.length_le; simp only [TTok.extent, List.length_cons, List.length_append]; omega
  | long hb => have := hb.length_le; simp only [TTok.extent, List.length_cons, List.length_append]; omega
  | longEnd hb => have := hb.length_le; simp only [TTok.extent, List.length_cons, List.length_append]; omega
  | bare _ _ _ _ _ hw => rw [hw.extent]; simp
  | numBare _ _ _ _ _ _ _ _ hw => rw [hw.extent]; simp only [List.length_append, List.length_cons]; omega
  | signedInf => simp [TTok.extent]
  | signedNan => simp [TTok.extent]
  | @pos a g r ha hl hd hne =>
    have := ungrouped_length g
    have : 0 < (ungrouped g).length := List.length_pos_iff.2 hne
    simp only [TTok.extent, List.length_append]; omega
  | neg => simp [TTok.extent]
  | float => simp only [TTok.extent, List.length_append, List.length_cons]; omega
  | @date a n g w r hl =>
    have := ungrouped_length g
    have := hl.length_le
    simp only [TTok.extent, List.length_append, List.length_cons]; omega

theorem TLexes.extents_le {ts : List TTok} {txt tail : List Char} (h : TLexes o ts txt tail) :
    extents ts + tail.length ≤ txt.length := by
  induction h with
  | nil => simp [extents]
  | cons _ hs _ ih => have := hs.extent_le; simp only [extents, List.length_append]; omega

theorem TLexesAll.extents_le {ts : List TTok} {txt : List Char} (h : TLexesAll o ts txt) : extents ts ≤ txt.length := by
  obtain ⟨w, r, -, -, h⟩ := h
  have := h.extents_le
  omega

theorem TElems.weight {vs : List Toml} {ts : List TTok} (h : TElems o vs ts) : tomlsWeight vs ≤ extents ts := by
  refine TElems.rec (motive_1 := fun v ts _ => v.weight ≤ extents ts)
    (motive_2 := fun vs ts _ => tomlsWeight vs ≤ extents ts) ?_ ?_ ?_ ?_ ?_ ?_ ?_ ?_ ?_ ?_ ?_ ?_ h
  all_goals (intros; simp only [Toml.weight, extents, TTok.extent, tomlsWeight, extents_append] at *; omega)

theorem TValue.weight {v : Toml} {ts : List TTok} (h : TValue o v ts) : v.weight ≤ extents ts := by
  cases h with
  | array h => have := h.weight; simp only [Toml.weight, extents, TTok.extent, extents_append]; omega
  | _ => simp [Toml.weight, extents, TTok.extent]

theorem tomlsWeight_append (a b : List Toml) : tomlsWeight (a ++ b) = tomlsWeight a + tomlsWeight b := by
  induction a with
  | nil => simp [tomlsWeight]
  | cons x a ih => simp only [List.cons_append, tomlsWeight, ih]; omega

theorem TOpen.weight {v : Toml} {ts : List TTok} (h : TOpen o v ts) : v.weight ≤ extents ts := by
  induction h with
  | one h => have := h.weight; simp only [Toml.weight, extents, TTok.extent]; omega
  | more h _ ih =>
    have := h.weight
    simp only [Toml.weight, extents, TTok.extent, extents_append, tomlsWeight_append, tomlsWeight]; omega

/-- What a statement can contribute. -/
def Stmt.weight : Stmt → Nat
  | .sect _ => 0
  | .table _ => 2
  | .assign _ v => 1 + v.weight

def stmtsWeight : List Stmt → Nat
  | [] => 0
  | x :: xs => x.weight + stmtsWeight xs

theorem stmtsWeight_append (a b : List Stmt) : stmtsWeight (a ++ b) = stmtsWeight a + stmtsWeight b := by
  induction a with
  | nil => simp [stmtsWeight]
  | cons x a ih => simp only [List.cons_append, stmtsWeight, ih]; omega

theorem TStmt.weight {x : Stmt} {ts : List TTok} (h : TStmt o x ts) : x.weight ≤ extents ts := by
  cases h with
  | sect => simp [Stmt.weight]
  | quoted => simp [Stmt.weight]
  | table => simp only [Stmt.weight, extents, TTok.extent]; omega
  | assign _ h => have := h.weight; simp only [Stmt.weight, extents, TTok.extent]; omega
  | quotedKey h => have := h.weight; simp only [Stmt.weight, extents, TTok.extent]; omega

theorem TStmts.weight {doc : List Stmt} {ts : List TTok} (h : TStmts o doc ts) : stmtsWeight doc ≤ extents ts := by
  induction h with
  | nil => simp [stmtsWeight]
  | cons hx _ ih => have := hx.weight; simp only [stmtsWeight, extents_append]; omega

theorem TReading.weight {doc : List Stmt} {ts : List TTok} (h : TReading o doc ts) : stmtsWeight doc ≤ extents ts := by
  cases h with
  | all h => exact h.weight
  | cut h _ hv =>
    have := h.weight
    have := hv.weight
    simp only [stmtsWeight_append, stmtsWeight, Stmt.weight, extents_append, extents, TTok.extent]; omega

theorem tInsert_weight (k : List Char) (v : Toml) (m : TMap) :
    entriesWeight (tInsert k v m) ≤ 1 + v.weight + entriesWeight m := by
  induction m with
  | nil => simp [tInsert, entriesWeight]
  | cons e m ih =>
    obtain ⟨k', v'⟩ := e
    simp only [tInsert]
    split
    · simp only [entriesWeight]; omega
    · split <;> simp only [entriesWeight] <;> omega

theorem tInsert_weight_over {k : List Char} {v w : Toml} : ∀ {m : TMap}, KSorted m → tGet k m = some w →
    entriesWeight (tInsert k v m) + w.weight = v.weight + entriesWeight m := by
  intro m
  induction m with
  | nil => intro _ h; simp [tGet] at h
  | cons e m ih =>
    obtain ⟨k', v'⟩ := e
    intro hs h
    obtain ⟨h1, h2⟩ := List.pairwise_cons.1 hs
    simp only [tInsert]
    by_cases he : k' = k
    · subst he
      simp [tGet] at h
      subst h
      simp only [if_pos, entriesWeight]; omega
    · rw [if_neg he]
      have hg : tGet k m = some w := by simpa [tGet, he] using h
      have hlt : strLt k k' = false := by
        cases hh : strLt k k' with
        | false => rfl
        | true =>
          have : tGet k m = none := tGet_none_of_lt fun e he => strLt_trans hh (h1 e he)
          rw [this] at hg; cases hg
      have := ih h2 hg
      simp only [hlt, Bool.false_eq_true, if_false, entriesWeight]; omega

theorem tablesWeight_append (a b : List TMap) : tablesWeight (a ++ b) = tablesWeight a + tablesWeight b := by
  induction a with
  | nil => simp [tablesWeight]
  | cons x a ih => simp only [List.cons_append, tablesWeight, ih]; omega

theorem tablesWeight_set {m m' : TMap} : ∀ {ts : List TMap} {n : Nat}, ts[n]? = some m →
    tablesWeight (ts.set n m') + entriesWeight m = tablesWeight ts + entriesWeight m' := by
  intro ts
  induction ts with
  | nil => intro n h; simp at h
  | cons x ts ih =>
    intro n h
    cases n with
    | zero => simp at h; subst h; simp only [List.set, tablesWeight]; omega
    | succ n => have := ih (n := n) (by simpa using h); simp only [List.set, tablesWeight]; omega

theorem TOut.step_weight {u u' : TOut} {x : Stmt} (hs : KSorted u.out) (h : u.step x = some u') :
    KSorted u'.out ∧ entriesWeight u'.out ≤ entriesWeight u.out + x.weight := by
  cases x with
  | sect s => simp only [TOut.step, Option.some.injEq] at h; subst h; exact ⟨hs, by simp [Stmt.weight]⟩
  | table n =>
    simp only [TOut.step, TOut.startArray, Option.map_eq_some_iff] at h
    obtain ⟨u1, h, rfl⟩ := h
    cases hg : tGet n u.out with
    | none =>
      have hw := tInsert_weight n (.array []) u.out
      have hso := tSorted_insert n (.array []) hs
      simp only [hg, Option.isNone_none, if_true, tGet_insert] at h
      simp at h
      subst h
      refine ⟨tSorted_insert _ _ hso, ?_⟩
      have := tInsert_weight_over (k := n) (v := .array [[]]) hso (w := .array []) (by simp [tGet_insert])
      simp only [Toml.weight, tablesWeight, entriesWeight, Stmt.weight] at this hw ⊢
      omega
    | some w =>
      simp only [hg, Option.isNone_some, Bool.false_eq_true, if_false] at h
      cases w <;> simp at h
      subst h
      refine ⟨tSorted_insert _ _ hs, ?_⟩
      rename_i ts
      have := tInsert_weight_over (v := .array (ts ++ [[]])) hs hg
      simp only [Toml.weight, tablesWeight, tablesWeight_append, entriesWeight, Stmt.weight] at this ⊢
      omega
  | assign k v =>
    simp only [TOut.step] at h
    generalize (if u.scope ≠ [] then u.scope ++ '.' :: k else k) = q at h
    simp only [TOut.put] at h
    cases hact : u.active with
    | none =>
      rw [hact] at h
      cases h
      refine ⟨tSorted_insert _ _ hs, ?_⟩
      have := tInsert_weight q v u.out
      simp only [Stmt.weight]; omega
    | some p =>
      obtain ⟨table, n⟩ := p
      rw [hact] at h
      simp only at h
      split at h
      · rename_i ts hg
        split at h
        · rename_i m hm
          cases h
          refine ⟨tSorted_insert _ _ hs, ?_⟩
          have h1 := tInsert_weight_over (v := .array (ts.set n (tInsert q v m))) hs hg
          have h2 := tablesWeight_set (m' := tInsert q v m) hm
          have h3 := tInsert_weight q v m
          simp only [Toml.weight, Stmt.weight] at h1 ⊢
          omega
        · cases h
      · cases h

theorem TOut.run_weight {doc : List Stmt} : ∀ {u u' : TOut}, KSorted u.out → u.run doc = some u' →
    entriesWeight u'.out ≤ entriesWeight u.out + stmtsWeight doc := by
  induction doc with
  | nil => intro u u' _ h; cases h; simp [stmtsWeight]
  | cons x xs ih =>
    intro u u' hs h
    simp only [TOut.run] at h
    split at h
    · rename_i u1 h1
      obtain ⟨hs1, hw⟩ := TOut.step_weight hs h1
      have := ih hs1 h
      simp only [stmtsWeight]; omega
    · cases h

theorem toml_weight {n : Nat} {txt : List Char} {m : TMap} {s : Cur} (h : parseToml o n txt = .ok m s) :
    entriesWeight m ≤ txt.length := by
  obtain ⟨doc, ts, c1, u', h1, h2, h3, h4, rfl⟩ := tLoop_sound h
  have a := TOut.run_weight (u := ⟨[], none, []⟩) List.Pairwise.nil h4
  have b := h1.weight
  have c := (h2.lexesAll h3 h1.no_eof).extents_le
  simp only [entriesWeight] at a
  omega

end NS
