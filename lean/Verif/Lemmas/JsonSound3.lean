import Verif.Lemmas.JsonSound2
/-! What the JSON reader accepts: two strings, and from states back to texts. -/
namespace NS
variable {fl : FloatOps} {env : Env}

/-- The lexeme that a token and the buffers stand for. -/
def jlexemeOf (s : PSt) : Lexeme :=
  match s.tok with
  | .str => .str s.strbuf
  | .null => .word ['n', 'u', 'l', 'l']
  | .bool b => .word (if b then ['t', 'r', 'u', 'e'] else ['f', 'a', 'l', 's', 'e'])
  | .u64 v => .num (.nat v)
  | .i64 v => .num (.neg v)
  | .f64 x => .num (.float x)
  | .eof => .eof
  | t => .punct t

theorem AtL.jeq {s l} (h : AtL jtok (JLex fl) s l) : l = jlexemeOf s := by
  obtain ⟨a, b, hx⟩ := h.ok
  unfold jlexemeOf
  rw [h.tok]
  rcases hx.cases with rfl | ⟨t, rfl, ht⟩ | (rfl | rfl | rfl) | ⟨w, rfl⟩ | ⟨t, rfl, _⟩
  · rfl
  · simp only [List.mem_cons, List.not_mem_nil, or_false] at ht
    rcases ht with rfl | rfl | rfl | rfl | rfl | rfl <;> rfl
  · simp [jtok]
  · simp [jtok]
  · simp [jtok]
  · rw [h.sb w rfl]; rfl
  · cases t <;> rfl

theorem JTr.heads {s l ls s' m} (h : JTr fl s (l :: ls) s') (hm : AtL jtok (JLex fl) s m) : m = l := by
  rw [hm.jeq, h.head'.jeq]

section
variable (hfl : FloatLaws fl)
include hfl

/-- Reading where two strings stand. -/
theorem deJson_strs (hk : LawfulKeys env) (hd : DistinctProg env) (n : Nat) : ∀ {t s v s' a b s1}, AtL jtok (JLex fl) s (.str a) →
    jNext fl s = .ok () s1 → AtL jtok (JLex fl) s1 (.str b) → deJson env fl n t s = .ok v s' →
    StrPair env t a b v := by
  have hn := jLexSound hfl
  induction n with
  | zero => intro t s v s' a b s1 _ _ _ e; cases e
  | succ n ih =>
    intro t s v s' a b s1 hw e1 hw' e
    have hl : JLexed fl s := ⟨_, hw⟩
    have ht : s.tok = .str := hw.tok
    have hno : ∀ {P : Prop} {t}, s.tok = t → t ≠ .str → P := fun h h1 => absurd (h.symm.trans ht) h1
    cases t with
    | unit =>
      obtain ⟨_, s2, e2, e⟩ := M.bind_eq_ok.1 (show (expectTok (jNext fl) .null "null" >>= fun _ => (pure .unit : PM Val)) s = _ from e)
      obtain ⟨e', h'⟩ := expectTok_err (nx := jNext fl) (what := "null") (t := .null) (st := s) (by rw [ht]; simp)
      rw [h'] at e2; cases e2
    | bool =>
      replace e : (match s.tok with
        | .bool b => jNext fl >>= fun _ => (pure (.bool b) : PM Val)
        | _ => errToken "boolean" : PM Val) s = .ok v s' := e
      rw [ht] at e; cases e
    | int k =>
      obtain ⟨_, _, _, t, i, t1, _⟩ := hn.deInt hl (show NS.deInt (jNext fl) k s = .ok v s' from e)
      cases JTr.heads t1 hw
    | f32 =>
      obtain ⟨_, _, t, t1, _⟩ := hn.float (fl := fl) (g := fun x => Val.f32 (fl.to32 x)) hl e
      cases JTr.heads t1 hw
    | f64 =>
      obtain ⟨_, _, t, t1, _⟩ := hn.float (fl := fl) (g := fun x => Val.f64 x) hl e
      cases JTr.heads t1 hw
    | str =>
      obtain ⟨w, s1, e1, e⟩ := M.bind_eq_ok.1 (show (deStr (jNext fl) >>= fun s => (pure (.str s) : PM Val)) s = _ from e)
      cases e
      obtain ⟨_, _, t1⟩ := hn.deStr hl e1
      cases JTr.heads t1 hw
      exact .str
    | dur =>
      exact hno (hn.deDur hl (show deDur (jNext fl) n s = _ from e)).1 (by simp)
    | time =>
      replace e : (if s.tok = .null then (jNext fl >>= fun _ => epochAt .none) else (deDur (jNext fl) n >>= fun v => epochAt v) : PM Val) s = .ok v s' := e
      rw [if_neg (by rw [ht]; simp)] at e
      obtain ⟨d, s2, e2, e⟩ := M.bind_eq_ok.1 e
      exact hno (hn.deDur hl e2).1 (by simp)
    | option t =>
      replace e : (if s.tok = .null then (jNext fl >>= fun _ => (pure .none : PM Val)) else (deJson env fl n t >>= fun v => (pure (.some v) : PM Val)) : PM Val) s = .ok v s' := e
      rw [if_neg (by rw [ht]; simp)] at e
      obtain ⟨d, s2, e2, e⟩ := M.bind_eq_ok.1 e
      cases e
      exact .some (ih hw e1 hw' e2)
    | vec t => exact hno (Got.deSeq hn (deJson_inv hfl hk hd n t) hl e).1 (by simp)
    | linked t => exact hno (Got.deSeq hn (deJson_inv hfl hk hd n t) hl e).1 (by simp)
    | hset t => exact hno (Got.deSeq hn (deJson_inv hfl hk hd n t) hl e).1 (by simp)
    | bset t => exact hno (Got.deSeq hn (deJson_inv hfl hk hd n t) hl e).1 (by simp)
    | array t len =>
      obtain ⟨_, s2, e2, e⟩ := M.bind_eq_ok.1 (show (blockOpen (jNext fl) >>= fun _ =>
        repeatM (thenEat (deJson env fl n t) (eatCommaBlock (jNext fl))) len >>= fun vs => blockClose (jNext fl) >>= fun _ =>
        (pure (.seq vs) : PM Val)) s = _ from e)
      exact hno (hn.expect hl e2 (by simp)).1 (by simp)
    | pair a b => exact hno (deJsonTuple_inv hfl [a, b] (deJson_inv hfl hk hd n) hl e).1 (by simp)
    | triple a b c => exact hno (deJsonTuple_inv hfl [a, b, c] (deJson_inv hfl hk hd n) hl e).1 (by simp)
    | quad a b c d => exact hno (deJsonTuple_inv hfl [a, b, c, d] (deJson_inv hfl hk hd n) hl e).1 (by simp)
    | hmap k t => exact hno (Got.deMap hn (deJson_inv hfl hk hd n k) (deJson_inv hfl hk hd n t) hl e).1 (by simp)
    | bmap k t => exact hno (Got.deMap hn (deJson_inv hfl hk hd n k) (deJson_inv hfl hk hd n t) hl e).1 (by simp)
    | box t =>
      obtain ⟨d, s2, e2, e⟩ := M.bind_eq_ok.1 (show (deJson env fl n t >>= fun v => (pure (.box v) : PM Val)) s = _ from e)
      cases e
      exact .box (ih hw e1 hw' e2)
    | named i =>
      rw [deJson] at e
      cases hdef : env.defs[i]? with
      | none => rw [hdef] at e; cases e
      | some d =>
        rw [hdef] at e
        cases d with
        | struct fs cd nul =>
          obtain ⟨vs, s2, e2, e⟩ := M.bind_eq_ok.1 e
          exact hno (deJsonNamed_inv hfl (hd.fields i fs cd nul hdef) (deJson_inv hfl hk hd n) hl e2).1 (by simp)
        | tuple ts trans =>
          match ts, trans with
          | [], tr =>
            obtain ⟨_, s2, e2, e⟩ := M.bind_eq_ok.1 (show (curlyOpen (jNext fl) >>= fun _ => curlyClose (jNext fl) >>= fun _ => (pure (.struct []) : PM Val)) s = _ from e)
            exact hno (hn.expect hl e2 (by simp)).1 (by simp)
          | [t], true =>
            obtain ⟨w, s2, e2, e⟩ := M.bind_eq_ok.1 (show (deJson env fl n t >>= fun v => (pure (.struct [v]) : PM Val)) s = _ from e)
            cases e
            exact .transparent hdef (ih hw e1 hw' e2)
          | [t], false =>
            obtain ⟨_, s2, e2, e⟩ := M.bind_eq_ok.1 (show (blockOpen (jNext fl) >>= fun _ => deJson env fl n t >>= fun v => blockClose (jNext fl) >>= fun _ =>
              (pure (.struct [v]) : PM Val)) s = _ from e)
            exact hno (hn.expect hl e2 (by simp)).1 (by simp)
          | t :: u :: ts, tr =>
            obtain ⟨_, s2, e2, e⟩ := M.bind_eq_ok.1 (show (blockOpen (jNext fl) >>= fun _ => deTysEat (deJson env fl n) (eatCommaBlock (jNext fl)) (t :: u :: ts) >>= fun vs =>
              blockClose (jNext fl) >>= fun _ => (pure (.struct vs) : PM Val)) s = _ from e)
            exact hno (hn.expect hl e2 (by simp)).1 (by simp)
        | enum vars =>
          replace e : (if s.tok = .curlyOpen ∧ vars.any (fun v => !v.isUnit) then (curlyOpen (jNext fl) >>= fun _ =>
              expectTok (jNext fl) .str "String" >>= fun _ => colon (jNext fl) >>= fun _ => M.get >>= fun st =>
              (match findVariant vars false st.strbuf with
              | some j => (deJsonShape (jNext fl) n (deJson env fl n) (vars.getD j { name := [], shape := .unit }).shape >>= fun vs =>
                  curlyClose (jNext fl) >>= fun _ => (pure (.variant j vs) : PM Val))
              | none => errEnum st.strbuf : PM Val))
            else if s.tok = .str ∧ vars.any (fun v => v.isUnit) then (expectTok (jNext fl) .str "String" >>= fun _ => M.get >>= fun st =>
              (match findVariant vars true st.strbuf with
              | some j => (pure (.variant j []) : PM Val)
              | none => errEnum st.strbuf : PM Val))
            else errToken "String or {" : PM Val) s = .ok v s' := e
          rw [if_neg (by rw [ht]; simp)] at e
          split at e
          · obtain ⟨_, s2, e2, e⟩ := M.bind_eq_ok.1 e
            obtain ⟨_, s4, e4, e⟩ := M.bind_eq_ok.1 e
            cases e4
            rw [expectTok_ok ht, e1] at e2
            cases e2
            rw [hw'.sb b rfl] at e
            cases hf : findVariant vars true b with
            | none => rw [hf] at e; cases e
            | some j =>
              rw [hf] at e
              cases e
              obtain ⟨var, hj, hu, rfl⟩ := (findVariant_iff (hd.variants i vars hdef)).1 hf
              exact .variant hdef hj (hu.1 rfl)
          · cases e
    | proxied i =>
      rw [deJson] at e
      cases hdef : env.proxies[i]? with
      | none => rw [hdef] at e; cases e
      | some px =>
        rw [hdef] at e
        obtain ⟨p, s2, e2, e⟩ := M.bind_eq_ok.1 e
        cases e
        exact .proxied hdef (ih hw e1 hw' e2)

end

/-! ## From states back to texts -/

/-- What was consumed, starting with the lexeme at `s`, which begins at `txt`. -/
theorem JTr.scan {s ls s'} (h : JTr fl s ls s') : ∀ {txt l}, AtL jtok (JLex fl) s l → JLex fl txt l s.cur.txt → Lexeme.eof ∉ ls →
    ∃ txt' l', JScan fl ls txt txt' ∧ AtL jtok (JLex fl) s' l' ∧ JLex fl txt' l' s'.cur.txt := by
  induction h with
  | nil => intro txt l hl hx _; exact ⟨txt, l, .nil, hl, hx⟩
  | cons h1 h2 h3 _ ih =>
    intro txt l hl hx hne
    have : l = _ := hl.jeq.trans h1.jeq.symm
    subst this
    rcases hx with ⟨rfl, _⟩ | hx
    · simp at hne
    · obtain ⟨txt', l', g1, g2, g3⟩ := ih h3 h2 (fun h => hne (List.mem_cons_of_mem _ h))
      exact ⟨txt', l', hx.append g1, g2, g3⟩

/-- At the end there is nothing but the end. -/
theorem JLex.at_end {a l b} (h : JLex fl a l b) (ha : a = [] ∨ a.head? = some '\x00') : l = .eof ∧ (b = [] ∨ b.head? = some '\x00') := by
  rcases h with ⟨rfl, _, h⟩ | h
  · exact ⟨rfl, h⟩
  · exfalso
    have h1 := Json.tok_fin (fl := fl) ha
    have hsp : ∃ s, JSpell fl l s := by cases h with | cons _ h _ _ => exact ⟨_, h⟩
    obtain ⟨sp, hsp⟩ := hsp
    have h2 := h.stream
    cases h2 with
    | cons h2 _ =>
      obtain ⟨c1, _, e1⟩ := h1 { initSt jcol [] with cur := ⟨a, 0, 0⟩ } rfl
      obtain ⟨c2, _, e2⟩ := h2 { initSt jcol [] with cur := ⟨a, 0, 0⟩ } rfl
      rw [e1] at e2
      injection e2 with _ e2
      exact jtok_eof hsp (congrArg PSt.tok e2).symm

theorem JTr.all_eof {s ls s'} (h : JTr fl s ls s') : ∀ {l}, AtL jtok (JLex fl) s l → l = .eof → (s.cur.txt = [] ∨ s.cur.txt.head? = some '\x00') →
    ∀ x ∈ ls, x = .eof := by
  induction h with
  | nil => intro l _ _ _ x hx; cases hx
  | cons h1 h2 h3 _ ih =>
    intro l hl hx he x hm
    have : l = _ := hl.jeq.trans h1.jeq.symm
    subst this
    obtain ⟨g1, g2⟩ := h2.at_end he
    rcases List.mem_cons.1 hm with rfl | hm
    · exact hx
    · exact ih h3 g1 g2 x hm

/-- If the end was consumed, nothing else was consumed after it. -/
theorem JTr.eof_last {s ls s'} (h : JTr fl s ls s') : ∀ {txt l}, AtL jtok (JLex fl) s l → JLex fl txt l s.cur.txt → Lexeme.eof ∈ ls →
    ls.getLast? = some .eof := by
  induction h with
  | nil => intro txt l _ _ h; cases h
  | @cons s l0 l' s1 ls s2 h1 h2 h3 ht ih =>
    intro txt l hl hx hm
    have : l = _ := hl.jeq.trans h1.jeq.symm
    subst this
    by_cases hm' : Lexeme.eof ∈ ls
    · have := ih h3 h2 hm'
      cases ls with
      | nil => cases hm'
      | cons y ls => simpa [List.getLast?_cons_cons] using this
    · rcases List.mem_cons.1 hm with rfl | hm
      · rcases hx with ⟨_, _, hx⟩ | hx
        · obtain ⟨g1, g2⟩ := h2.at_end hx
          have := JTr.all_eof ht h3 g1 g2
          cases ls with
          | nil => rfl
          | cons y ls =>
            have := this y (by simp)
            subst this
            simp at hm'
        · cases hx with
          | cons _ h _ _ => cases h
      · exact absurd hm hm'

end NS
