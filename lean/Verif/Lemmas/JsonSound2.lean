import Verif.Lemmas.JsonSound
/-! What the JSON reader accepts: enums and the whole reader. -/
namespace NS
variable {fl : FloatOps} {env : Env}

theorem Tr.head' {tk Lx s l ls s'} (h : Tr tk Lx s (l :: ls) s') : AtL tk Lx s l := by
  cases h; assumption

theorem notSep_str {s : PSt} {w} (h : AtL jtok (JLex fl) s (.str w)) : NotSep s.tok := by
  rw [h.tok]; simp [NotSep, jtok]

theorem Lexeme.str_of_sb {l : Lexeme} {w} (h : l.sb = some w) : l = .str w := by
  cases l <;> simp [Lexeme.sb] at h
  rw [h]

theorem durLexemes_of {bs : List (Nat ⊕ Nat)} {a b : Nat}
    (h : bs = [.inl a, .inr b] ∨ bs = [.inr b, .inl a] ∨ (bs = [.inl a] ∧ b = 0)) : DurLexemes (bs.map durLex) a b := by
  rcases h with rfl | rfl | ⟨rfl, rfl⟩
  · exact .inl rfl
  · exact .inr (.inl rfl)
  · exact .inr (.inr ⟨rfl, rfl⟩)

variable (hfl : FloatLaws fl)
include hfl

theorem deJsonTuple_inv {de : Ty → PM Val} (ts : List Ty) {s v s'} (hde : ∀ t, JGot env fl (de t) t) (hl : JLexed fl s)
    (e : deTuple (blockOpen (jNext fl)) (blockClose (jNext fl)) (eatCommaBlock (jNext fl)) de ts s = .ok v s') :
    s.tok = .blockOpen ∧ JLexed fl s' ∧ ∃ (qs : List (Ty × List Lexeme × Val)) (tr : Bool), qs.map (·.1) = ts ∧
      (∀ q ∈ qs, JsonSays env fl q.1 q.2.1 q.2.2) ∧ v = .seq (qs.map (·.2.2)) ∧
      JTr fl s (inBlocks tr (qs.map (·.2.1))) s' := by
  have hn := jLexSound hfl
  unfold deTuple at e
  obtain ⟨_, s1, e1, e⟩ := M.bind_eq_ok.1 e
  obtain ⟨vs, s2, e2, e⟩ := M.bind_eq_ok.1 e
  obtain ⟨_, s3, e3, e⟩ := M.bind_eq_ok.1 e
  cases e
  obtain ⟨h0, l1, t1⟩ := hn.expect hl e1 (by simp)
  obtain ⟨l2, _, ps, tr, p1, p2, t2, rfl⟩ := Got.deTysComma hn (PT := JsonSays env fl) (.inl rfl) ts (fun t _ => hde t) l1 e2
  obtain ⟨_, l3, t3⟩ := hn.expect l2 e3 (by simp)
  exact ⟨h0, l3, ps, tr, p1, p2, rfl, by simpa [inBlocks] using t1.append (t2.append t3)⟩

theorem deJsonTys_inv {de : Ty → PM Val} (ts : List Ty) {s vs s'} (hde : ∀ t, JGot env fl (de t) t) (hl : JLexed fl s)
    (e : (blockOpen (jNext fl) >>= fun _ => deTysEat de (eatCommaBlock (jNext fl)) ts >>= fun vs => blockClose (jNext fl) >>= fun _ =>
      (pure vs : PM (List Val))) s = .ok vs s') :
    s.tok = .blockOpen ∧ JLexed fl s' ∧ ∃ (qs : List (Ty × List Lexeme × Val)) (tr : Bool), qs.map (·.1) = ts ∧
      (∀ q ∈ qs, JsonSays env fl q.1 q.2.1 q.2.2) ∧ vs = qs.map (·.2.2) ∧
      JTr fl s (inBlocks tr (qs.map (·.2.1))) s' := by
  have hn := jLexSound hfl
  obtain ⟨_, s1, e1, e⟩ := M.bind_eq_ok.1 e
  obtain ⟨vs, s2, e2, e⟩ := M.bind_eq_ok.1 e
  obtain ⟨_, s3, e3, e⟩ := M.bind_eq_ok.1 e
  cases e
  obtain ⟨h0, l1, t1⟩ := hn.expect hl e1 (by simp)
  obtain ⟨l2, _, ps, tr, p1, p2, t2, rfl⟩ := Got.deTysEat hn (PT := JsonSays env fl) (.inl rfl) ts (fun t _ => hde t) l1 e2
  obtain ⟨_, l3, t3⟩ := hn.expect l2 e3 (by simp)
  exact ⟨h0, l3, ps, tr, p1, p2, rfl, by simpa [inBlocks] using t1.append (t2.append t3)⟩

/-- The conclusion of `deJson_inv`. -/
abbrev JEnd (env : Env) (fl : FloatOps) (t : Ty) (s : PSt) (v : Val) (s' : PSt) : Prop :=
  NotSep s.tok ∧ JLexed fl s' ∧ ((∃ ls, JsonSays env fl t ls v ∧ JTr fl s ls s') ∨ (JQ fl s v s' ∧ NotSep s'.tok))

theorem deJsonTupleStruct_inv {de : Ty → PM Val} {ts : List Ty} {trans i s v s'} (hdef : env.defs[i]? = some (.tuple ts trans))
    (hde : ∀ t, JGot env fl (de t) t) (hl : JLexed fl s) (e : deJsonTupleStruct (jNext fl) de ts trans s = .ok v s') :
    JEnd env fl (.named i) s v s' := by
  have hn := jLexSound hfl
  match ts, trans with
  | [], tr =>
    obtain ⟨_, s1, e1, e⟩ := M.bind_eq_ok.1 (show (curlyOpen (jNext fl) >>= fun _ => curlyClose (jNext fl) >>= fun _ => (pure (.struct []) : PM Val)) s = _ from e)
    obtain ⟨_, s2, e2, e⟩ := M.bind_eq_ok.1 e
    cases e
    obtain ⟨h0, l1, t1⟩ := hn.expect hl e1 (by simp)
    obtain ⟨_, l2, t2⟩ := hn.expect l1 e2 (by simp)
    exact ⟨by rw [h0]; simp [NotSep], l2, .inl ⟨_, .noFields hdef, t1.append t2⟩⟩
  | [t], true =>
    obtain ⟨w, s1, e1, e⟩ := M.bind_eq_ok.1 (show (de t >>= fun v => (pure (.struct [v]) : PM Val)) s = _ from e)
    cases e
    obtain ⟨h0, l1, ⟨ls, h1, t1⟩ | hq⟩ := hde t _ _ _ hl e1
    · exact ⟨h0, l1, .inl ⟨ls, .transparent hdef h1, t1⟩⟩
    · exact ⟨h0, l1, .inr hq⟩
  | [t], false =>
    obtain ⟨_, s1, e1, e⟩ := M.bind_eq_ok.1 (show (blockOpen (jNext fl) >>= fun _ => de t >>= fun v => blockClose (jNext fl) >>= fun _ =>
      (pure (.struct [v]) : PM Val)) s = _ from e)
    obtain ⟨w, s2, e2, e⟩ := M.bind_eq_ok.1 e
    obtain ⟨_, s3, e3, e⟩ := M.bind_eq_ok.1 e
    cases e
    obtain ⟨h0, l1, t1⟩ := hn.expect hl e1 (by simp)
    obtain ⟨_, l2, h2⟩ := hde t _ _ _ l1 e2
    obtain ⟨hc, l3, t3⟩ := hn.expect l2 e3 (by simp)
    rcases h2 with ⟨ls, h2, t2⟩ | ⟨_, hns⟩
    · exact ⟨by rw [h0]; simp [NotSep], l3, .inl ⟨_, .newtype hdef h2, by simpa [inBlocks, commaLexemes] using t1.append (t2.append t3)⟩⟩
    · exact absurd hc hns.2.2.1
  | t :: u :: ts, tr =>
    obtain ⟨vs, e', rfl⟩ : ∃ vs, (blockOpen (jNext fl) >>= fun _ => deTysEat de (eatCommaBlock (jNext fl)) (t :: u :: ts) >>= fun vs =>
        blockClose (jNext fl) >>= fun _ => (pure vs : PM (List Val))) s = .ok vs s' ∧ v = .struct vs := by
      obtain ⟨_, s1, e1, e⟩ := M.bind_eq_ok.1 (show (blockOpen (jNext fl) >>= fun _ => deTysEat de (eatCommaBlock (jNext fl)) (t :: u :: ts) >>= fun vs =>
        blockClose (jNext fl) >>= fun _ => (pure (.struct vs) : PM Val)) s = _ from e)
      obtain ⟨vs, s2, e2, e⟩ := M.bind_eq_ok.1 e
      obtain ⟨_, s3, e3, e⟩ := M.bind_eq_ok.1 e
      cases e
      exact ⟨vs, by rw [M.bind_ok e1, M.bind_ok e2, M.bind_ok e3]; rfl, rfl⟩
    obtain ⟨h0, l1, qs, tr, q1, q2, rfl, t1⟩ := deJsonTys_inv hfl _ hde hl e'
    refine ⟨by rw [h0]; simp [NotSep], l1, .inl ⟨_, .tupleStruct qs (by rw [hdef, q1]) ?_ q2, t1⟩⟩
    have := congrArg List.length q1
    simp at this
    omega

theorem deJsonShape_inv {de : Ty → PM Val} {vars : List Variant} {i j var n s vs s'} (hdef : env.defs[i]? = some (.enum vars))
    (hd : DistinctProg env) (hj : vars[j]? = some var) (hu : var.shape ≠ .unit)
    (hde : ∀ t, JGot env fl (de t) t) (hl : JLexed fl s) (e : deJsonShape (jNext fl) n de var.shape s = .ok vs s') :
    (s.tok = .blockOpen ∨ s.tok = .curlyOpen) ∧ JLexed fl s' ∧ ∃ ls, JTr fl s ls s' ∧
      JsonSays env fl (.named i) (inCurlies false [.str var.jsonName :: .punct .colon :: ls]) (.variant j vs) := by
  have hvf := hd.varFields i vars hdef var (List.mem_of_getElem? hj)
  cases hsh : var.shape with
  | unit => exact absurd hsh hu
  | tuple ts =>
    rw [hsh] at e
    obtain ⟨h0, l1, qs, tr, q1, q2, rfl, t1⟩ := deJsonTys_inv hfl ts hde hl e
    exact ⟨.inl h0, l1, _, t1, .tupleVariant qs hdef hj (by rw [hsh, q1]) q2⟩
  | named fs =>
    rw [hsh] at e
    obtain ⟨h0, l1, ps, tr, p1, p2, p3, t1⟩ := deJsonNamed_inv hfl (hvf fs hsh) hde hl e
    exact ⟨.inr h0, l1, _, t1, .structVariant ps hdef hj hsh p1 p2 p3⟩

theorem deJsonEnum_inv {de : Ty → PM Val} {vars : List Variant} {i n s v s'} (hdef : env.defs[i]? = some (.enum vars))
    (hd : DistinctProg env)
    (hde : ∀ t, JGot env fl (de t) t) (hl : JLexed fl s) (e : deJsonEnum (jNext fl) n de vars s = .ok v s') :
    JEnd env fl (.named i) s v s' := by
  have hn := jLexSound hfl
  have hdv := hd.variants i vars hdef
  replace e : (if s.tok = .curlyOpen ∧ vars.any (fun v => !v.isUnit) then (curlyOpen (jNext fl) >>= fun _ =>
      expectTok (jNext fl) .str "String" >>= fun _ => colon (jNext fl) >>= fun _ => M.get >>= fun st =>
      (match findVariant vars false st.strbuf with
      | some j => (deJsonShape (jNext fl) n de (vars.getD j { name := [], shape := .unit }).shape >>= fun vs =>
          curlyClose (jNext fl) >>= fun _ => (pure (.variant j vs) : PM Val))
      | none => errEnum st.strbuf : PM Val))
    else if s.tok = .str ∧ vars.any (fun v => v.isUnit) then (expectTok (jNext fl) .str "String" >>= fun _ => M.get >>= fun st =>
      (match findVariant vars true st.strbuf with
      | some j => (pure (.variant j []) : PM Val)
      | none => errEnum st.strbuf : PM Val))
    else errToken "String or {" : PM Val) s = .ok v s' := e
  have unitVar : ∀ {u : Bool} {j : Nat} {w : List Char}, findVariant vars u w = some j → ∃ var, vars[j]? = some var ∧ (u = true ↔ var.shape = .unit) ∧
      var.jsonName = w := fun h => (findVariant_iff hdv).1 h
  split at e
  · obtain ⟨_, s1, e1, e⟩ := M.bind_eq_ok.1 e
    obtain ⟨_, s2, e2, e⟩ := M.bind_eq_ok.1 e
    obtain ⟨_, s3, e3, e⟩ := M.bind_eq_ok.1 e
    obtain ⟨_, s4, e4, e⟩ := M.bind_eq_ok.1 e
    cases e4
    obtain ⟨h0, l1, t1⟩ := hn.expect hl e1 (by simp)
    by_cases ht : s1.tok = .str
    rotate_left
    · obtain ⟨e', h'⟩ := expectTok_err (nx := jNext fl) (what := "String") ht
      rw [h'] at e2; cases e2
    rw [expectTok_ok ht] at e2
    have hw := AtL.string l1 ht
    obtain ⟨l2, h2, t2, b2⟩ := hn.stepS hw e2
    by_cases hc : s2.tok = .colon
    rotate_left
    · obtain ⟨e', h'⟩ := expectTok_err (nx := jNext fl) (what := ":") hc
      unfold colon at e3
      rw [h'] at e3; cases e3
    have e3' : jNext fl s2 = .ok () s3 := by
      unfold colon at e3; rwa [expectTok_ok hc] at e3
    obtain ⟨a, b, hx⟩ := h2.ok
    obtain rfl := (jtok_inv (t := .colon) hx (h2.tok.symm.trans hc)).1 (by simp)
    obtain ⟨l3, h3, t3, b3⟩ := hn.stepS h2 e3'
    have hsb := b2 rfl
    cases hf : findVariant vars false s3.strbuf with
    | none => rw [hf] at e; cases e
    | some j =>
      rw [hf] at e
      obtain ⟨var, hj, hu, hname⟩ := unitVar hf
      have hget : vars.getD j { name := [], shape := .unit } = var := by simp [List.getD, hj]
      simp only [hget] at e
      obtain ⟨vs, s5, e5, e⟩ := M.bind_eq_ok.1 e
      obtain ⟨_, s6, e6, e⟩ := M.bind_eq_ok.1 e
      cases e
      obtain ⟨g0, l5, ls, t5, hs⟩ := deJsonShape_inv hfl hdef hd hj (fun h => by simpa using hu.2 h) hde ⟨_, h3⟩ e5
      obtain ⟨_, l6, t6⟩ := hn.expect l5 e6 (by simp)
      have hl3 : l3.sb = none := by
        cases hb : l3.sb with
        | none => rfl
        | some w =>
          obtain rfl := Lexeme.str_of_sb hb
          have := h3.tok
          rcases g0 with g | g <;> rw [g] at this <;> simp [jtok] at this
      have hkey : var.jsonName = s1.strbuf := by rw [hname, b3 hl3, hsb]
      refine ⟨by rw [h0]; simp [NotSep], l6, .inl ⟨_, hs, ?_⟩⟩
      rw [hkey]
      simpa [inCurlies, commaLexemes] using t1.append (t2.append (t3.append (t5.append t6)))
  · split at e
    · rename_i hh
      have ht := hh.1
      obtain ⟨_, s1, e1, e⟩ := M.bind_eq_ok.1 e
      obtain ⟨_, s4, e4, e⟩ := M.bind_eq_ok.1 e
      cases e4
      rw [expectTok_ok ht] at e1
      have hw := AtL.string hl ht
      obtain ⟨l1, h1, t1, b1⟩ := hn.stepS hw e1
      refine ⟨notSep_str hw, ?_⟩
      cases hf : findVariant vars true s1.strbuf with
      | none => rw [hf] at e; cases e
      | some j =>
        rw [hf] at e
        cases e
        obtain ⟨var, hj, hu, hname⟩ := unitVar hf
        refine ⟨⟨_, h1⟩, ?_⟩
        cases hb : l1.sb with
        | none =>
          refine .inl ⟨_, .variant hdef hj (hu.1 rfl), ?_⟩
          rw [hname, b1 hb]
          exact t1
        | some w =>
          obtain rfl := Lexeme.str_of_sb hb
          exact .inr ⟨⟨_, _, hw, h1, t1⟩, notSep_str h1⟩
    · cases e

/-- Everything the reader accepts is a value followed by a lexeme, or two strings. -/
theorem deJson_inv (hk : LawfulKeys env) (hd : DistinctProg env) (n : Nat) : ∀ t, JGot env fl (deJson env fl n t) t := by
  have hn := jLexSound hfl
  have foldSnoc : ∀ (l acc : List Val), l.foldl (fun acc v => acc ++ [v]) acc = acc ++ l := by
    intro l
    induction l with
    | nil => intro acc; simp
    | cons a l ih => intro acc; simp [ih]
  induction n with
  | zero => intro t s v s' _ e; cases e
  | succ n ih =>
    intro t s v s' hl e
    have good : ∀ {ls}, NotSep s.tok → JLexed fl s' → JsonSays env fl t ls v → JTr fl s ls s' → JEnd env fl t s v s' :=
      fun h1 h2 h3 h4 => ⟨h1, h2, .inl ⟨_, h3, h4⟩⟩
    have opn : s.tok = .blockOpen ∨ s.tok = .curlyOpen → NotSep s.tok := by
      rintro (h | h) <;> rw [h] <;> simp [NotSep]
    cases t with
    | unit =>
      obtain ⟨_, s1, e1, e⟩ := M.bind_eq_ok.1 (show (expectTok (jNext fl) .null "null" >>= fun _ => (pure .unit : PM Val)) s = _ from e)
      cases e
      by_cases ht : s.tok = .null
      · rw [expectTok_ok ht] at e1
        obtain ⟨l1, h1, t1, _⟩ := hn.step ((AtL.null hl).1 ht) rfl rfl e1
        exact good (by rw [ht]; simp [NotSep]) ⟨_, h1⟩ .unit t1
      · obtain ⟨e', h'⟩ := expectTok_err (nx := jNext fl) (what := "null") ht
        rw [h'] at e1; cases e1
    | bool =>
      replace e : (match s.tok with
        | .bool b => jNext fl >>= fun _ => (pure (.bool b) : PM Val)
        | _ => errToken "boolean" : PM Val) s = .ok v s' := e
      cases ht : s.tok with
      | bool b =>
        rw [ht] at e
        obtain ⟨_, s1, e1, e⟩ := M.bind_eq_ok.1 e
        cases e
        obtain ⟨l1, _, _, _, h1⟩ := hn.number hl rfl rfl e1
        rw [← ht]
        cases b with
        | true => exact good (by rw [ht]; simp [NotSep]) l1 .true (h1 ht)
        | false => exact good (by rw [ht]; simp [NotSep]) l1 .false (h1 ht)
      | _ => rw [ht] at e; cases e
    | int k =>
      obtain ⟨l1, h0, hk', t, i, t1, rfl, _, h⟩ := hn.deInt hl (show NS.deInt (jNext fl) k s = .ok v s' from e)
      rcases h with ⟨h1, h2, h3⟩ | ⟨m, rfl, h1, h2, h3, h4, h5⟩
      · exact good h0 l1 (.int hk' h1 h2 h3) t1
      · exact good h0 l1 (.intWrap hk' h1 h2 h3 h4 h5) t1
    | f32 =>
      obtain ⟨l1, h0, t, t1, rfl⟩ := hn.float (fl := fl) (g := fun x => Val.f32 (fl.to32 x)) hl e
      exact good h0 l1 .f32 t1
    | f64 =>
      obtain ⟨l1, h0, t, t1, rfl⟩ := hn.float (fl := fl) (g := fun x => Val.f64 x) hl e
      exact good h0 l1 .f64 t1
    | str =>
      obtain ⟨w, s1, e1, e⟩ := M.bind_eq_ok.1 (show (deStr (jNext fl) >>= fun s => (pure (.str s) : PM Val)) s = _ from e)
      cases e
      obtain ⟨h0, l1, t1⟩ := hn.deStr hl e1
      exact good (by rw [h0]; simp [NotSep]) l1 .str t1
    | dur =>
      obtain ⟨h0, l1, bs, tr, a, b, h1, h2, h3, rfl, t1⟩ := hn.deDur hl (show deDur (jNext fl) n s = _ from e)
      exact good (opn (.inr h0)) l1 (.dur (tr := tr) (durLexemes_of h1) h2 h3) t1
    | time =>
      replace e : (if s.tok = .null then (jNext fl >>= fun _ => epochAt .none) else (deDur (jNext fl) n >>= fun v => epochAt v) : PM Val) s = .ok v s' := e
      by_cases ha : s.tok = .null
      · rw [if_pos ha] at e
        have hw := (AtL.null hl).1 ha
        obtain ⟨_, s1, e1, e⟩ := M.bind_eq_ok.1 e
        cases e
        obtain ⟨l1, h1, t1, _⟩ := hn.step hw rfl rfl e1
        exact good (by rw [ha]; simp [NotSep]) ⟨l1, h1⟩ .epoch t1
      · rw [if_neg ha] at e
        obtain ⟨d, s1, e1, e⟩ := M.bind_eq_ok.1 e
        obtain ⟨h0, l1, bs, tr, a, b, h1, h2, h3, rfl, t1⟩ := hn.deDur hl e1
        unfold epochAt at e
        simp only at e
        by_cases hs : a + b / 1000000000 < 2 ^ 63
        · rw [if_pos hs] at e
          cases e
          exact good (opn (.inr h0)) l1 (.time (tr := tr) (durLexemes_of h1) h2 hs) t1
        · rw [if_neg hs] at e; cases e
    | option t =>
      replace e : (if s.tok = .null then (jNext fl >>= fun _ => (pure .none : PM Val)) else (deJson env fl n t >>= fun v => (pure (.some v) : PM Val)) : PM Val) s = .ok v s' := e
      by_cases ha : s.tok = .null
      · rw [if_pos ha] at e
        have hw := (AtL.null hl).1 ha
        obtain ⟨_, s1, e1, e⟩ := M.bind_eq_ok.1 e
        cases e
        obtain ⟨l1, h1, t1, _⟩ := hn.step hw rfl rfl e1
        exact good (by rw [ha]; simp [NotSep]) ⟨l1, h1⟩ .none t1
      · rw [if_neg ha] at e
        obtain ⟨d, s1, e1, e⟩ := M.bind_eq_ok.1 e
        cases e
        obtain ⟨h0, l1, ⟨ls, hx, t1⟩ | hq⟩ := ih t s d _ hl e1
        · refine good h0 l1 (.some (fun h => ?_) hx) t1
          cases ls with
          | nil => cases h
          | cons x ls =>
            injection h with h
            subst h
            exact ha ((AtL.null hl).2 t1.head')
        · exact ⟨h0, l1, .inr hq⟩
    | vec t =>
      obtain ⟨h0, l1, qs, tr, q1, t1, q2⟩ := Got.deSeq hn (ih t) hl (show deSeq (jNext fl) n (deJson env fl n t) (fun acc v => acc ++ [v]) s = _ from e)
      rw [foldSnoc] at q2
      subst q2
      exact good (opn (.inl h0)) l1 (.vec (tr := tr) qs q1) t1
    | linked t =>
      obtain ⟨h0, l1, qs, tr, q1, t1, q2⟩ := Got.deSeq hn (ih t) hl (show deSeq (jNext fl) n (deJson env fl n t) (fun acc v => acc ++ [v]) s = _ from e)
      rw [foldSnoc] at q2
      subst q2
      exact good (opn (.inl h0)) l1 (.linked (tr := tr) qs q1) t1
    | hset t =>
      obtain ⟨h0, l1, qs, tr, q1, t1, q2⟩ := Got.deSeq hn (ih t) hl (show deSeq (jNext fl) n (deJson env fl n t) (collInsert env .hset) s = _ from e)
      rw [hset_fold_firsts hk] at q2
      subst q2
      exact good (opn (.inl h0)) l1 (.hset (tr := tr) qs q1) t1
    | bset t =>
      obtain ⟨h0, l1, qs, tr, q1, t1, rfl⟩ := Got.deSeq hn (ih t) hl (show deSeq (jNext fl) n (deJson env fl n t) (collInsert env .bset) s = _ from e)
      refine good (opn (.inl h0)) l1 (.bset (tr := tr) qs q1 ⟨bset_fold_pairwise hk _ _ (by simp), fun x => ?_⟩) t1
      rw [bset_fold_mem hk]; simp
    | array t len =>
      obtain ⟨_, s1, e1, e⟩ := M.bind_eq_ok.1 (show (blockOpen (jNext fl) >>= fun _ =>
        repeatM (thenEat (deJson env fl n t) (eatCommaBlock (jNext fl))) len >>= fun vs => blockClose (jNext fl) >>= fun _ =>
        (pure (.seq vs) : PM Val)) s = _ from e)
      obtain ⟨vs, s2, e2, e⟩ := M.bind_eq_ok.1 e
      obtain ⟨_, s3, e3, e⟩ := M.bind_eq_ok.1 e
      cases e
      obtain ⟨h0, l1, t1⟩ := hn.expect hl e1 (by simp)
      obtain ⟨l2, _, ps, tr, p1, p2, t2, rfl⟩ := Got.repeatM hn (ih t) (.inl rfl) len l1 e2
      obtain ⟨_, l3, t3⟩ := hn.expect l2 e3 (by simp)
      exact good (opn (.inl h0)) l3 (.array (tr := tr) ps p1 p2) (by simpa [inBlocks] using t1.append (t2.append t3))
    | pair a b =>
      obtain ⟨h0, l1, qs, tr, q1, q2, rfl, t1⟩ := deJsonTuple_inv hfl [a, b] ih hl e
      exact good (opn (.inl h0)) l1 (.pair qs q1 q2) t1
    | triple a b c =>
      obtain ⟨h0, l1, qs, tr, q1, q2, rfl, t1⟩ := deJsonTuple_inv hfl [a, b, c] ih hl e
      exact good (opn (.inl h0)) l1 (.triple qs q1 q2) t1
    | quad a b c d =>
      obtain ⟨h0, l1, qs, tr, q1, q2, rfl, t1⟩ := deJsonTuple_inv hfl [a, b, c, d] ih hl e
      exact good (opn (.inl h0)) l1 (.quad qs q1 q2) t1
    | hmap k t =>
      obtain ⟨h0, l1, qs, tr, q1, t1, rfl⟩ := Got.deMap hn (ih k) (ih t) hl
        (show deMap (jNext fl) n (deJson env fl n k) (deJson env fl n t) (collInsert env .hmap) s = _ from e)
      have hE : AllEntries (qs.map fun p => Val.entry p.1.2 p.2.2) := by
        intro w hw
        obtain ⟨p, _, rfl⟩ := List.mem_map.1 hw
        exact ⟨_, _, rfl⟩
      refine good (opn (.inr h0)) l1 (.hmap (tr := tr) qs (fun p hp => (q1 p hp).1) (fun p hp => (q1 p hp).2)
        ⟨(hmap_fold_pairwise hk _ [] hE (by simp [AllEntries]) (by simp)).1, fun q => ?_⟩ ?_) t1
      · rw [hmap_fold_get hk _ _ _ hE (by simp [AllEntries])]
        cases lastVal q (qs.map fun p => Val.entry p.1.2 p.2.2) <;> rfl
      · rw [hmap_fold_keys _ _ hE (by simp [AllEntries]), List.map_nil, hset_fold_firsts hk, List.map_map]
        rfl
    | bmap k t =>
      obtain ⟨h0, l1, qs, tr, q1, t1, rfl⟩ := Got.deMap hn (ih k) (ih t) hl
        (show deMap (jNext fl) n (deJson env fl n k) (deJson env fl n t) (collInsert env .bmap) s = _ from e)
      have hE : AllEntries (qs.map fun p => Val.entry p.1.2 p.2.2) := by
        intro w hw
        obtain ⟨p, _, rfl⟩ := List.mem_map.1 hw
        exact ⟨_, _, rfl⟩
      have hp := bmap_fold_pairwise hk (qs.map fun p => Val.entry p.1.2 p.2.2) [] hE (by simp [AllEntries]) (by simp)
      refine good (opn (.inr h0)) l1 (.bmap (tr := tr) qs (fun p hp => (q1 p hp).1) (fun p hp => (q1 p hp).2) ⟨hp.1, fun q => ?_⟩ hp.2) t1
      rw [bmap_fold_get hk _ _ _ hE (by simp [AllEntries])]
      cases lastVal q (qs.map fun p => Val.entry p.1.2 p.2.2) <;> rfl
    | box t =>
      obtain ⟨d, s1, e1, e⟩ := M.bind_eq_ok.1 (show (deJson env fl n t >>= fun v => (pure (.box v) : PM Val)) s = _ from e)
      cases e
      obtain ⟨h0, l1, ⟨ls, hx, t1⟩ | hq⟩ := ih t s d _ hl e1
      · exact good h0 l1 (.box hx) t1
      · exact ⟨h0, l1, .inr hq⟩
    | named i =>
      rw [deJson] at e
      cases hdef : env.defs[i]? with
      | none => rw [hdef] at e; cases e
      | some d =>
        rw [hdef] at e
        cases d with
        | struct fs cd nul =>
          obtain ⟨vs, s1, e1, e⟩ := M.bind_eq_ok.1 e
          cases e
          obtain ⟨h0, l1, ps, tr, p1, p2, p3, t1⟩ := deJsonNamed_inv hfl (hd.fields i fs cd nul hdef) ih hl e1
          exact good (opn (.inr h0)) l1 (.struct ps hdef p1 p2 p3) t1
        | tuple ts trans => exact deJsonTupleStruct_inv hfl hdef ih hl e
        | enum vars => exact deJsonEnum_inv hfl hdef hd ih hl e
    | proxied i =>
      rw [deJson] at e
      cases hdef : env.proxies[i]? with
      | none => rw [hdef] at e; cases e
      | some px =>
        rw [hdef] at e
        obtain ⟨p, s1, e1, e⟩ := M.bind_eq_ok.1 e
        cases e
        obtain ⟨h0, l1, ⟨ls, hx, t1⟩ | hq⟩ := ih px.ty s p _ hl e1
        · exact good h0 l1 (.proxied hdef hx) t1
        · exact ⟨h0, l1, .inr hq⟩

end NS
