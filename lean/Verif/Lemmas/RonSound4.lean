import Verif.Lemmas.RonSound3
import Verif.Lemmas.RonScan2
/-! What the RON reader accepts: two words, and the theorem about texts. -/
namespace NS
variable {fl : FloatOps} {env : Env}

theorem RTr.heads {s l ls s' m} (h : RTr fl s (l :: ls) s') (hm : AtL rtok (RLex fl) s m) : m = l := by
  rw [hm.eq, h.head.eq]

section
variable (hfl : FloatLaws fl)
include hfl

/-- Reading where two words stand. -/
theorem deRon_words (hk : LawfulKeys env) (hd : DistinctProg env) (n : Nat) : ∀ {t s v s' w w' s1}, AtL rtok (RLex fl) s (.word w) →
    rNext fl s = .ok () s1 → AtL rtok (RLex fl) s1 (.word w') → deRon env fl n t s = .ok v s' →
    WordPair env t w w' v := by
  have hn := rLexSound hfl
  induction n with
  | zero => intro t s v s' w w' s1 _ _ _ e; cases e
  | succ n ih =>
    intro t s v s' w w' s1 hw e1 hw' e
    have hl : RLexed fl s := ⟨_, hw⟩
    have htok : s.tok = .ident ∧ NotBool w ∨ ∃ b : Bool, s.tok = .bool b ∧ w = if b then ['t', 'r', 'u', 'e'] else ['f', 'a', 'l', 's', 'e'] := by
      rw [hw.tok]; exact rtok_word w
    have hno : ∀ {P : Prop} {t}, s.tok = t → t ≠ .ident → (∀ b, t ≠ .bool b) → P := by
      intro P t h h1 h2
      rcases htok with ⟨h3, _⟩ | ⟨b, h3, _⟩
      · exact absurd (h.symm.trans h3) h1
      · exact absurd (h.symm.trans h3) (h2 b)
    have word1 : ∀ w, (RTree.word w).lexemes = [.word w] := fun s => by rw [RTree.lexemes]
    have list1 : ∀ {P : Prop} {xs tr}, RTr fl s (RTree.list xs tr).lexemes s' → P := by
      intro P xs tr h
      rw [RTree.lexemes_list] at h
      cases h.heads hw
    have map1 : ∀ {P : Prop} {xs tr s'}, RTr fl s (RTree.map xs tr).lexemes s' → P := by
      intro P xs tr s' h
      rw [RTree.lexemes_map] at h
      cases h.heads hw
    cases t with
    | unit =>
      obtain ⟨_, s2, e2, e⟩ := M.bind_eq_ok.1 (show (parenOpen (rNext fl) >>= fun _ => parenClose (rNext fl) >>= fun _ => (pure .unit : PM Val)) s = _ from e)
      exact hno (hn.expect hl e2 (by simp)).1 (by simp) (by simp)
    | bool =>
      replace e : (match s.tok with
        | .bool b => rNext fl >>= fun _ => (pure (.bool b) : PM Val)
        | .u64 v => rNext fl >>= fun _ => (pure (.bool (v != 0)) : PM Val)
        | _ => errToken "boolean" : PM Val) s = .ok v s' := e
      rcases htok with ⟨h3, _⟩ | ⟨b, h3, rfl⟩
      · rw [h3] at e; cases e
      · rw [h3] at e
        obtain ⟨_, s2, e2, e⟩ := M.bind_eq_ok.1 e
        cases e
        cases b with
        | true => exact .true
        | false => exact .false
    | int k =>
      obtain ⟨_, _, _, t, i, t1, _⟩ := hn.deInt hl (show NS.deInt (rNext fl) k s = .ok v s' from e)
      cases RTr.heads t1 hw
    | f32 =>
      obtain ⟨_, _, t, t1, _⟩ := hn.float (fl := fl) (g := fun x => Val.f32 (fl.to32 x)) hl e
      cases RTr.heads t1 hw
    | f64 =>
      obtain ⟨_, _, t, t1, _⟩ := hn.float (fl := fl) (g := fun x => Val.f64 x) hl e
      cases RTr.heads t1 hw
    | str =>
      obtain ⟨w, s1, e1, e⟩ := M.bind_eq_ok.1 (show (deStr (rNext fl) >>= fun s => (pure (.str s) : PM Val)) s = _ from e)
      exact hno (hn.deStr hl e1).1 (by simp) (by simp)
    | dur =>
      obtain ⟨_, _, ms, tr, a, b, _, _, _, _, t1⟩ := deDur_inv hfl hl (show deDur (rNext fl) n s = _ from e)
      exact map1 t1
    | time =>
      replace e : (if atNone s then (rNext fl >>= fun _ => epochAt .none) else (deDur (rNext fl) n >>= fun v => epochAt v) : PM Val) s = .ok v s' := e
      by_cases ha : atNone s = true
      · rw [if_pos ha] at e
        have h := ((atNone_iff hl).1 ha).eq
        rw [← hw.eq] at h
        injection h with h; subst h
        obtain ⟨_, s2, e2, e⟩ := M.bind_eq_ok.1 e
        cases e
        exact .epoch
      · rw [if_neg ha] at e
        obtain ⟨d, s2, e2, e⟩ := M.bind_eq_ok.1 e
        obtain ⟨_, _, ms, tr, a, b, _, _, _, _, t1⟩ := deDur_inv hfl hl e2
        exact map1 t1
    | option t =>
      replace e : (if atNone s then (rNext fl >>= fun _ => (pure .none : PM Val)) else (deRon env fl n t >>= fun v => (pure (.some v) : PM Val)) : PM Val) s = .ok v s' := e
      by_cases ha : atNone s = true
      · rw [if_pos ha] at e
        have h := ((atNone_iff hl).1 ha).eq
        rw [← hw.eq] at h
        injection h with h; subst h
        obtain ⟨_, s2, e2, e⟩ := M.bind_eq_ok.1 e
        cases e
        exact .none
      · rw [if_neg ha] at e
        obtain ⟨d, s2, e2, e⟩ := M.bind_eq_ok.1 e
        cases e
        refine .some ?_ (ih hw e1 hw' e2)
        rintro rfl
        exact ha ((atNone_iff hl).2 hw)
    | vec t =>
      obtain ⟨_, _, qs, tr, _, _, t1⟩ := deSeq_inv hfl (deRon_inv hfl hk hd n t) hl (show deSeq (rNext fl) n (deRon env fl n t) (fun acc v => acc ++ [v]) s = _ from e)
      exact list1 t1
    | linked t =>
      obtain ⟨_, _, qs, tr, _, _, t1⟩ := deSeq_inv hfl (deRon_inv hfl hk hd n t) hl (show deSeq (rNext fl) n (deRon env fl n t) (fun acc v => acc ++ [v]) s = _ from e)
      exact list1 t1
    | hset t =>
      obtain ⟨_, _, qs, tr, _, _, t1⟩ := deSeq_inv hfl (deRon_inv hfl hk hd n t) hl (show deSeq (rNext fl) n (deRon env fl n t) (collInsert env .hset) s = _ from e)
      exact list1 t1
    | bset t =>
      obtain ⟨_, _, qs, tr, _, _, t1⟩ := deSeq_inv hfl (deRon_inv hfl hk hd n t) hl (show deSeq (rNext fl) n (deRon env fl n t) (collInsert env .bset) s = _ from e)
      exact list1 t1
    | array t len =>
      obtain ⟨_, s2, e2, e⟩ := M.bind_eq_ok.1 (show (parenOpen (rNext fl) >>= fun _ =>
        repeatM (thenEat (deRon env fl n t) (eatCommaParen (rNext fl))) len >>= fun vs => parenClose (rNext fl) >>= fun _ =>
        (pure (.seq vs) : PM Val)) s = _ from e)
      exact hno (hn.expect hl e2 (by simp)).1 (by simp) (by simp)
    | pair a b =>
      exact hno (deTuple_inv hfl [a, b] (deRon_inv hfl hk hd n) hl e).1 (by simp) (by simp)
    | triple a b c =>
      exact hno (deTuple_inv hfl [a, b, c] (deRon_inv hfl hk hd n) hl e).1 (by simp) (by simp)
    | quad a b c d =>
      exact hno (deTuple_inv hfl [a, b, c, d] (deRon_inv hfl hk hd n) hl e).1 (by simp) (by simp)
    | hmap k t =>
      obtain ⟨_, _, qs, tr, _, _, _, t1⟩ := deMap_inv hfl (deRon_inv hfl hk hd n k) (deRon_inv hfl hk hd n t) hl
        (show deMap (rNext fl) n (deRon env fl n k) (deRon env fl n t) (collInsert env .hmap) s = _ from e)
      exact map1 t1
    | bmap k t =>
      obtain ⟨_, _, qs, tr, _, _, _, t1⟩ := deMap_inv hfl (deRon_inv hfl hk hd n k) (deRon_inv hfl hk hd n t) hl
        (show deMap (rNext fl) n (deRon env fl n k) (deRon env fl n t) (collInsert env .bmap) s = _ from e)
      exact map1 t1
    | box t =>
      obtain ⟨d, s2, e2, e⟩ := M.bind_eq_ok.1 (show (deRon env fl n t >>= fun v => (pure (.box v) : PM Val)) s = _ from e)
      cases e
      exact .box (ih hw e1 hw' e2)
    | named i =>
      rw [deRon] at e
      cases hdef : env.defs[i]? with
      | none => rw [hdef] at e; cases e
      | some d =>
        rw [hdef] at e
        cases d with
        | struct fs cd nul =>
          obtain ⟨vs, s2, e2, e⟩ := M.bind_eq_ok.1 e
          exact hno (deRonNamed_inv hfl (hd.fields i fs cd nul hdef) (deRon_inv hfl hk hd n) hl e2).1 (by simp) (by simp)
        | tuple ts trans =>
          obtain ⟨vs, s2, e2, e⟩ := M.bind_eq_ok.1 e
          exact hno (deRonTys_inv hfl ts (deRon_inv hfl hk hd n) hl e2).1 (by simp) (by simp)
        | enum vars =>
          unfold deRonEnum at e
          obtain ⟨_, s2, e2, e⟩ := M.bind_eq_ok.1 e
          by_cases ht : s.tok = .ident
          rotate_left
          · obtain ⟨e', h'⟩ := expectTok_err (nx := rNext fl) (what := "Identifier") ht
            rw [h'] at e2; cases e2
          rw [expectTok_ok ht, e1] at e2
          cases e2
          have hnb : NotBool w := by
            rcases htok with ⟨_, h⟩ | ⟨b, h, _⟩
            · exact h
            · rw [ht] at h; cases h
          replace e : (match vars.findIdx? (fun v => v.name == s1.identbuf) with
            | some j => (deRonShape (rNext fl) n (deRon env fl n) (vars.getD j { name := [], shape := .unit }).shape >>= fun vs => (pure (.variant j vs) : PM Val))
            | none => errEnum s1.identbuf : PM Val) s1 = .ok v s' := e
          rw [hw'.ib w' rfl] at e
          have hne : s1.tok ≠ .parenOpen := by
            rw [hw'.tok]
            rcases rtok_word w' with ⟨e, _⟩ | ⟨b, e, _⟩ <;> rw [e] <;> simp
          cases hf : vars.findIdx? (fun v => v.name == w') with
          | none => rw [hf] at e; cases e
          | some j =>
            rw [hf] at e
            obtain ⟨var, hj, hname, hfirst, hget⟩ := findVariant_inv hf
            simp only [hget] at e
            obtain ⟨vs, s3, e3, e⟩ := M.bind_eq_ok.1 e
            cases e
            have hvf := hd.varFields i vars hdef var (List.mem_of_getElem? hj)
            cases hsh : var.shape with
            | unit =>
              rw [hsh] at e3
              cases e3
              exact .variant hdef hnb hj hname hfirst hsh
            | tuple ts =>
              rw [hsh] at e3
              exact absurd (deRonTys_inv hfl ts (deRon_inv hfl hk hd n) ⟨_, hw'⟩ e3).1 hne
            | named fs =>
              rw [hsh] at e3
              exact absurd (deRonNamed_inv hfl (hvf fs hsh) (deRon_inv hfl hk hd n) ⟨_, hw'⟩ e3).1 hne
    | proxied i => cases e

end

/-! ## From states back to texts -/

/-- What was consumed, starting with the lexeme at `s`, which begins at `txt`. -/
theorem RTr.scan {s ls s'} (h : RTr fl s ls s') : ∀ {txt l}, AtL rtok (RLex fl) s l → RLex fl txt l s.cur.txt → Lexeme.eof ∉ ls →
    ∃ txt' l', RScan fl ls txt txt' ∧ AtL rtok (RLex fl) s' l' ∧ RLex fl txt' l' s'.cur.txt := by
  induction h with
  | nil => intro txt l hl hx _; exact ⟨txt, l, .nil, hl, hx⟩
  | cons h1 h2 h3 _ ih =>
    intro txt l hl hx hne
    have : l = _ := hl.eq.trans h1.eq.symm
    subst this
    rcases hx with ⟨rfl, _⟩ | hx
    · simp at hne
    · obtain ⟨txt', l', g1, g2, g3⟩ := ih h3 h2 (fun h => hne (List.mem_cons_of_mem _ h))
      exact ⟨txt', l', hx.append g1, g2, g3⟩

theorem RTree.eof_not_mem (x : RTree) : Lexeme.eof ∉ x.lexemes := by
  have hc : ∀ {tr} {ls : List (List Lexeme)}, (∀ l ∈ ls, Lexeme.eof ∉ l) → Lexeme.eof ∉ commaLexemes tr ls := by
    intro tr ls
    induction ls with
    | nil => intro _; simp [commaLexemes]
    | cons a ls ih =>
      intro h
      have h1 := h a (by simp)
      have h2 := ih fun l hl => h l (by simp [hl])
      cases ls with
      | nil => cases tr <;> simp [commaLexemes, h1]
      | cons b ls => simp only [commaLexemes, List.mem_append, List.mem_cons] ; simp [h1]; exact h2
  match x with
  | .word w => rw [RTree.lexemes]; simp
  | .num w => rw [RTree.lexemes]; simp
  | .str w => rw [RTree.lexemes]; simp
  | .list xs tr =>
    rw [RTree.lexemes_list]
    have := hc (tr := tr) (ls := xs.map RTree.lexemes) fun l hl => by
      obtain ⟨x, hx, rfl⟩ := List.mem_map.1 hl
      exact RTree.eof_not_mem x
    simpa using this
  | .tuple xs tr =>
    rw [RTree.lexemes_tuple]
    have := hc (tr := tr) (ls := xs.map RTree.lexemes) fun l hl => by
      obtain ⟨x, hx, rfl⟩ := List.mem_map.1 hl
      exact RTree.eof_not_mem x
    simpa using this
  | .fields ms tr =>
    rw [RTree.lexemes_fields]
    have := hc (tr := tr) (ls := ms.map fun m => .word m.1 :: .punct .colon :: m.2.lexemes) fun l hl => by
      obtain ⟨m, hm, rfl⟩ := List.mem_map.1 hl
      have := RTree.eof_not_mem m.2
      simpa using this
    simpa using this
  | .map ms tr =>
    rw [RTree.lexemes_map]
    have := hc (tr := tr) (ls := ms.map fun m => m.1.lexemes ++ .punct .colon :: m.2.lexemes) fun l hl => by
      obtain ⟨m, hm, rfl⟩ := List.mem_map.1 hl
      have h1 := RTree.eof_not_mem m.1
      have h2 := RTree.eof_not_mem m.2
      simp [h1, h2]
    simpa using this
  | .ctor w b =>
    rw [RTree.lexemes_ctor]
    have := RTree.eof_not_mem b
    simpa using this
termination_by sizeOf x
decreasing_by
  · have := List.sizeOf_lt_of_mem hx; simp; omega
  · have := List.sizeOf_lt_of_mem hx; simp; omega
  · have := List.sizeOf_lt_of_mem hm
    have h : sizeOf m = 1 + sizeOf m.1 + sizeOf m.2 := by cases m; rfl
    simp; omega
  · have := List.sizeOf_lt_of_mem hm
    have h : sizeOf m = 1 + sizeOf m.1 + sizeOf m.2 := by cases m; rfl
    simp; omega
  · have := List.sizeOf_lt_of_mem hm
    have h : sizeOf m = 1 + sizeOf m.1 + sizeOf m.2 := by cases m; rfl
    simp; omega
  · simp; omega

end NS
