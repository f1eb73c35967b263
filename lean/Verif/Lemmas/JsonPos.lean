import Verif.Lemmas.CurRel
import Verif.Spec.Layout
import Verif.Spec.Prog
/-! Positions in error messages. -/
namespace NS
variable {env : Env} {fl : FloatOps}

theorem newlines_snoc (s : List Char) (c : Char) : newlines (s ++ [c]) = newlines s + if c = '\n' then 1 else 0 := by
  unfold newlines
  by_cases h : c = '\n' <;> simp [List.filter_append, h]

theorem sinceNewline_snoc (s : List Char) (c : Char) :
    sinceNewline (s ++ [c]) = if c = '\n' then 0 else sinceNewline s + 1 := by
  unfold sinceNewline
  by_cases h : c = '\n' <;> simp [h]

/-- The line of the cursor is right. -/
def LineOk (input : List Char) (c : Cur) : Prop :=
  ∃ pre, input = pre ++ c.txt ∧ c.line = newlines (pre ++ c.txt.take 1)

/-- The line and column of the cursor are right. -/
def PosOk (input : List Char) (c : Cur) : Prop :=
  ∃ pre, input = pre ++ c.txt ∧ c.line = newlines (pre ++ c.txt.take 1) ∧ c.col = sinceNewline (pre ++ c.txt.take 1)

theorem PosOk.next {input c} (h : PosOk input c) : PosOk input (c.next jcol) := by
  obtain ⟨txt, l, k⟩ := c
  obtain ⟨pre, h1, h2, h3⟩ := h
  simp only at h1 h2 h3
  match txt with
  | [] => exact ⟨pre, h1, h2, h3⟩
  | [x] => exact ⟨pre ++ [x], by simp [h1, Cur.next], by simp [Cur.next, h2], by simp [Cur.next, h3]⟩
  | x :: y :: t =>
    have e1 := newlines_snoc (pre ++ [x]) y
    have e2 := sinceNewline_snoc (pre ++ [x]) y
    simp only [List.take_succ_cons, List.take_zero] at h2 h3
    refine ⟨pre ++ [x], by simp [h1], ?_⟩
    by_cases hy : y = '\n'
    · simp only [Cur.next, if_pos hy, List.take_succ_cons, List.take_zero] at e1 e2 ⊢
      rw [e1, e2, h2]; exact ⟨rfl, rfl⟩
    · simp only [Cur.next, if_neg hy, List.take_succ_cons, List.take_zero] at e1 e2 ⊢
      rw [e1, e2, h2, h3]; exact ⟨rfl, rfl⟩

theorem LineOk.next {input c} (k : Nat → Nat) (h : LineOk input c) : LineOk input (c.next k) := by
  obtain ⟨txt, l, q⟩ := c
  obtain ⟨pre, h1, h2⟩ := h
  simp only at h1 h2
  match txt with
  | [] => exact ⟨pre, h1, h2⟩
  | [x] => exact ⟨pre ++ [x], by simp [h1, Cur.next], by simp [Cur.next, h2]⟩
  | x :: y :: t =>
    have e1 := newlines_snoc (pre ++ [x]) y
    simp only [List.take_succ_cons, List.take_zero] at h2
    refine ⟨pre ++ [x], by simp [h1], ?_⟩
    by_cases hy : y = '\n'
    · simp only [Cur.next, if_pos hy, List.take_succ_cons, List.take_zero] at e1 ⊢
      rw [e1, h2]
    · simp only [Cur.next, if_neg hy, List.take_succ_cons, List.take_zero] at e1 ⊢
      rw [e1, h2]; rfl

/-- Equal cursors with correct positions. -/
def posRel (input : List Char) : CurRel jcol where
  Q c c' := c' = c ∧ PosOk input c
  txt h := by rw [h.1]
  next h := ⟨by rw [h.1], h.2.next⟩

theorem initSt_pos (input : List Char) : PosOk input (initSt jcol input).cur := by
  refine ⟨[], ?_, ?_⟩
  · simp [initSt]
  · cases input with
    | nil => simp [initSt, Cur.next, newlines, sinceNewline]
    | cons x t =>
      by_cases hx : x = '\n'
      · simp [initSt, Cur.next, hx, newlines, sinceNewline]
      · simp [initSt, Cur.next, hx, newlines, sinceNewline, jcol]

/-- Everything about positions in one run. -/
theorem deserializeJson_pos (n : Nat) (t : Ty) (input : List Char) :
    OutRel ((posRel input).sim True) (deserializeJson env fl n t input) (deserializeJson env fl n t input) := by
  refine Rel.bind (CurRel.jNext fl) (fun _ => deJson_rel env fl (CurRel.jNext fl) n n t (Nat.le_refl _) (.inl trivial)) _ _ ?_
  exact ⟨⟨rfl, initSt_pos input⟩, rfl, rfl, rfl⟩

/-! ## The position is that of the final state -/

/-- Errors carry the position of the state they leave behind. -/
def Exact {α : Type} (x : PM α) : Prop := ∀ s e s', x s = .err e s' → e.line = s'.cur.line ∧ e.col = s'.cur.col

namespace Exact
variable {α β : Type}

theorem pure (a : α) : Exact (Pure.pure a : PM α) := by intro s e s' h; cases h
theorem oof : Exact (M.oof : PM α) := by intro s e s' h; cases h
theorem panic : Exact (M.panic : PM α) := by intro s e s' h; cases h
theorem fail (f : PSt → Reason) : Exact (failWith f : PM α) := by
  intro s e s' h
  simp only [failWith] at h
  injection h with h1 h2
  subst h1 h2
  exact ⟨rfl, rfl⟩

theorem bind {x : PM α} {f : α → PM β} (h : Exact x) (hf : ∀ a, Exact (f a)) : Exact (x >>= f) := by
  intro s e s' he
  rw [M.bind_def] at he
  cases hx : x s with
  | ok a s1 => rw [hx] at he; exact hf a _ _ _ he
  | err e1 s1 => rw [hx] at he; injection he with h1 h2; subst h1 h2; exact h _ _ _ hx
  | panic => rw [hx] at he; cases he
  | oof => rw [hx] at he; cases he

theorem get {f : PSt → PM α} (h : ∀ s, Exact (f s)) : Exact (M.get >>= f) := fun s e s' he => h s s e s' he

theorem errToken (w : String) : Exact (NS.errToken w : PM α) := fail _
theorem errParse (w) : Exact (NS.errParse w : PM α) := fail _
theorem errRange (w) : Exact (NS.errRange w : PM α) := fail _
theorem errNf (w) : Exact (NS.errNf w : PM α) := fail _
theorem errEnum (w) : Exact (NS.errEnum w : PM α) := fail _
theorem errExp (w) : Exact (NS.errExp w : PM α) := fail _

theorem jNext : Exact (jNext fl) := by
  intro s e s' h
  unfold NS.jNext at h
  split at h
  · unfold NS.jTok at h
    simp only at h
    split at h
    · cases h
    split at h
    · cases h
    split at h
    · split at h
      · cases h
      · exact errParse (α := Unit) _ _ _ _ h
    split at h
    · split at h
      · cases h
      split at h
      · cases h
      split at h
      · cases h
      · exact fail (α := Unit) _ _ _ _ h
    split at h
    · split at h
      · cases h
      · exact errParse (α := Unit) _ _ _ _ h
      · cases h
    · exact errToken (α := Unit) _ _ _ _ h
  · exact fail (α := Unit) _ _ _ _ h
  · cases h

theorem rSkip (n : Nat) : Exact (rSkip n) := by
  induction n with
  | zero => exact oof
  | succ n ih =>
    intro s e s' h
    unfold NS.rSkip at h
    simp only at h
    split at h
    · split at h
      · exact ih _ _ _ h
      split at h
      · exact ih _ _ _ h
      · exact errParse (α := Unit) _ _ _ _ h
    split at h
    · generalize hC : (if ((s.cur.span rcol isWs).2.next rcol).ch = '\\' then
        ((s.cur.span rcol isWs).2.next rcol).next rcol else (s.cur.span rcol isWs).2.next rcol) = c2 at h
      split at h
      · exact errToken (α := Unit) _ _ _ _ h
      · exact ih _ _ _ h
    · cases h

theorem rNext : Exact (rNext fl) := by
  intro s e s' h
  unfold NS.rNext at h
  split at h
  · unfold NS.rTok at h
    simp only at h
    split at h
    · cases h
    split at h
    · cases h
    split at h
    · split at h
      · cases h
      · exact errParse (α := Unit) _ _ _ _ h
    split at h
    · split at h
      · cases h
      split at h
      · cases h
      · cases h
    split at h
    · split at h
      · cases h
      · exact errParse (α := Unit) _ _ _ _ h
      · cases h
    · exact errToken (α := Unit) _ _ _ _ h
  · exact rSkip _ _ _ _ h

variable {nx : PM Unit} (hn : Exact nx)
include hn

theorem expectTok (t w) : Exact (expectTok nx t w) := by
  refine get fun s => ?_
  split
  · exact hn
  · exact errToken w

theorem eatComma (t w) : Exact (eatComma nx t w) := by
  refine get fun s => ?_
  split
  · exact hn
  split
  · exact pure _
  · exact errToken w

theorem nextColon : Exact (nextColon nx) := bind hn fun _ => expectTok hn _ _

omit hn in
theorem u64Range (m) : Exact (u64Range m) := by
  refine get fun s => ?_
  split
  · split
    · exact errRange _
    · exact pure _
  · exact errToken _

omit hn in
theorem i64Range (lo hi) : Exact (i64Range lo hi) := by
  refine get fun s => ?_
  split
  · split
    · exact errRange _
    · exact pure _
  · split
    · exact errRange _
    · exact pure _
  · exact errToken _

omit hn in
theorem asF64 (fl) : Exact (asF64 fl) := by
  refine get fun s => ?_
  split <;> first | exact pure _ | exact errToken _

theorem deStr : Exact (deStr nx) := by
  refine bind (get fun s => ?_) fun _ => bind hn fun _ => pure _
  split
  · exact bind (fun s e s' h => by cases h) fun _ => pure _
  · exact errToken _

theorem deInt (k) : Exact (deInt nx k) := by
  unfold NS.deInt
  split
  · exact oof
  split
  · exact bind (i64Range _ _) fun _ => bind hn fun _ => pure _
  · exact bind (u64Range _) fun _ => bind hn fun _ => pure _

omit hn in
theorem whileNot {α : Type} {close : Tok} {body : α → PM α} (h : ∀ a, Exact (body a)) (n : Nat) (a : α) :
    Exact (whileNot close body n a) := by
  induction n generalizing a with
  | zero => exact oof
  | succ n ih =>
    refine get fun s => ?_
    split
    · exact pure _
    · exact bind (h _) fun _ => ih _

omit hn in
theorem whileIs {α : Type} {t : Tok} {body : α → PM α} (h : ∀ a, Exact (body a)) (n : Nat) (a : α) :
    Exact (whileIs t body n a) := by
  induction n generalizing a with
  | zero => exact oof
  | succ n ih =>
    refine get fun s => ?_
    split
    · exact bind (h _) fun _ => ih _
    · exact pure _

theorem deSeq (n : Nat) {x : PM Val} (h : Exact x) (add) : Exact (deSeq nx n x add) :=
  bind (expectTok hn _ _) fun _ =>
    bind (whileNot (fun _ => bind h fun _ => bind (eatComma hn _ _) fun _ => pure _) _ _) fun _ =>
      bind (expectTok hn _ _) fun _ => pure _

theorem deMap (n : Nat) {k v : PM Val} (hk : Exact k) (hv : Exact v) (add) : Exact (deMap nx n k v add) :=
  bind (expectTok hn _ _) fun _ =>
    bind (whileNot (fun _ => bind hk fun _ => bind (expectTok hn _ _) fun _ => bind hv fun _ =>
      bind (eatComma hn _ _) fun _ => pure _) _ _) fun _ => bind (expectTok hn _ _) fun _ => pure _

theorem deDur (n : Nat) : Exact (deDur nx n) := by
  refine bind (expectTok hn _ _) fun _ => bind (whileNot (fun acc => ?_) _ _) fun _ =>
    bind (expectTok hn _ _) fun _ => ?_
  · refine bind (deStr hn) fun key => bind ?_ fun _ => bind (eatComma hn _ _) fun _ => pure _
    unfold durValue
    split
    · split
      · exact errParse _
      · exact bind (expectTok hn _ _) fun _ => bind (u64Range _) fun _ => bind hn fun _ => pure _
    split
    · split
      · exact errParse _
      · exact bind (expectTok hn _ _) fun _ => bind (u64Range _) fun _ => bind hn fun _ => pure _
    · exact errParse _
  · split
    · exact errParse _
    · simp only
      split
      · exact errRange _
      · intro s e s' h
        unfold durNewP at h
        split at h
        · cases h
        split at h <;> cases h

omit hn in
theorem epochAt (v) : Exact (epochAt v) := by
  intro s e s' h
  unfold NS.epochAt at h
  split at h
  · split at h <;> cases h
  · cases h

omit hn in
theorem unwrapFields (cd fs acc) : Exact (unwrapFields cd fs acc) := by
  induction fs generalizing acc with
  | nil => cases acc <;> exact pure _
  | cons f fs ih =>
    cases acc with
    | nil => exact pure _
    | cons o os =>
      unfold NS.unwrapFields
      simp only
      split
      · exact bind (pure _) fun _ => bind (ih os) fun _ => pure _
      split
      · exact bind (pure _) fun _ => bind (ih os) fun _ => pure _
      · exact bind (errNf _) fun _ => bind (ih os) fun _ => pure _

omit hn in
theorem deTysEat {de : Ty → PM Val} {e : PM Unit} (he : Exact e) {ts : List Ty} (h : ∀ t ∈ ts, Exact (de t)) :
    Exact (deTysEat de e ts) := by
  induction ts with
  | nil => exact pure _
  | cons t ts ih =>
    exact bind (bind (h t (by simp)) fun _ => bind he fun _ => pure _) fun _ =>
      bind (ih fun u hu => h u (by simp [hu])) fun _ => pure _

theorem wholeLoop (n : Nat) (k : Int) : Exact (wholeLoop nx n k) := by
  induction n generalizing k with
  | zero => exact oof
  | succ n ih =>
    refine get fun s => ?_
    simp only
    generalize (if s.tok = .blockClose ∨ s.tok = .curlyClose then
      (if s.tok = .blockOpen ∨ s.tok = .curlyOpen then k + 1 else k) - 1
      else (if s.tok = .blockOpen ∨ s.tok = .curlyOpen then k + 1 else k)) = b
    refine bind hn fun _ => ?_
    split
    · exact pure _
    · exact ih _

theorem wholeField (n : Nat) : Exact (wholeField nx n) := by
  refine get fun s => ?_
  cases s.tok with
  | f64 _ | i64 _ | u64 _ | bool _ => exact hn
  | str | null => exact hn
  | blockOpen | curlyOpen => exact wholeLoop hn _ _
  | _ => exact panic

theorem deJsonTupleStruct {de : Ty → PM Val} {ts : List Ty} (tr) (hts : ∀ t ∈ ts, Exact (de t)) :
    Exact (deJsonTupleStruct nx de ts tr) := by
  unfold NS.deJsonTupleStruct
  split
  · exact bind (expectTok hn _ _) fun _ => bind (expectTok hn _ _) fun _ => pure _
  · exact bind (hts _ (by simp)) fun _ => pure _
  · exact bind (expectTok hn _ _) fun _ => bind (hts _ (by simp)) fun _ =>
      bind (expectTok hn _ _) fun _ => pure _
  · exact bind (expectTok hn _ _) fun _ => bind (deTysEat (eatComma hn _ _) hts) fun _ =>
      bind (expectTok hn _ _) fun _ => pure _

theorem deJsonNamed (n : Nat) {de : Ty → PM Val} (cd) {fs : List Field}
    (h : ∀ f ∈ fs, Exact (de f.ty) ∧ ∀ t, f.ty = .option t → Exact (de t)) : Exact (deJsonNamed nx n de cd fs) := by
  refine bind (expectTok hn _ _) fun _ => bind (whileIs (fun acc => ?_) _ _) fun _ =>
    bind (expectTok hn _ _) fun _ => unwrapFields _ _ _
  refine get fun s => bind ?_ fun _ => bind (eatComma hn _ _) fun _ => pure _
  unfold jMemberValue
  split
  · exact pure _
  · cases hf : findField fs s.strbuf with
    | none => exact bind (nextColon hn) fun _ => bind (wholeField hn n) fun _ => pure _
    | some i =>
      have hi := (List.findIdx?_eq_some_iff_getElem.1 hf).1
      have hg : fs.getD i { name := [], ty := .unit } = fs[i] := by
        rw [List.getD_eq_getElem?_getD, List.getElem?_eq_getElem hi]; rfl
      have hm := h _ (List.getElem_mem hi)
      simp only [hg]
      refine bind (nextColon hn) fun _ => bind ?_ fun _ => pure _
      unfold deField
      cases fs[i].optProxy with
      | false => exact hm.1
      | true =>
        cases hty : fs[i].ty with
        | option t => exact bind (hm.2 t hty) fun _ => pure _
        | _ => simp only; rw [← hty]; exact hm.1

theorem deRonNamed (n : Nat) {de : Ty → PM Val} (cd) {fs : List Field}
    (h : ∀ f ∈ fs, Exact (de f.ty)) : Exact (deRonNamed nx n de cd fs) := by
  refine bind (expectTok hn _ _) fun _ => bind (whileIs (fun acc => ?_) _ _) fun _ =>
    bind (expectTok hn _ _) fun _ => unwrapFields _ _ _
  refine get fun s => bind ?_ fun _ => bind (eatComma hn _ _) fun _ => pure _
  unfold rMemberValue
  split
  · exact pure _
  · cases hf : findField fs s.identbuf with
    | none => exact errExp _
    | some i =>
      have hi := (List.findIdx?_eq_some_iff_getElem.1 hf).1
      have hg : fs.getD i { name := [], ty := .unit } = fs[i] := by
        rw [List.getD_eq_getElem?_getD, List.getElem?_eq_getElem hi]; rfl
      simp only [hg]
      exact bind (nextColon hn) fun _ => bind (h _ (List.getElem_mem hi)) fun _ => pure _

omit hn in
theorem repeatM {x : PM α} (h : Exact x) (n : Nat) : Exact (repeatM x n) := by
  induction n with
  | zero => exact pure _
  | succ n ih => exact bind h fun _ => bind ih fun _ => pure _

end Exact

theorem deJson_exact (h : NoTuples env) : ∀ (n : Nat) (t : Ty), noTuple t = true → Exact (deJson env fl n t) := by
  intro n
  induction n with
  | zero => intro t _; exact Exact.oof
  | succ n ih =>
    intro t ht
    have hn : Exact (jNext fl) := Exact.jNext
    have hmem : ∀ {i : Nat} {d}, env.defs[i]? = some d → ∀ t ∈ d.tys, noTuple t = true :=
      fun hd => h.1 _ (List.mem_of_getElem? hd)
    have hopt : ∀ {t u}, t = Ty.option u → noTuple t = true → noTuple u = true := by
      rintro _ u rfl h; exact h
    cases t with
    | unit => exact .bind (.expectTok hn _ _) fun _ => .pure _
    | bool =>
      refine .get fun s => ?_
      split
      · exact .bind hn fun _ => .pure _
      · exact .errToken _
    | int k => exact .deInt hn k
    | f32 => exact .bind (.asF64 fl) fun _ => .bind hn fun _ => .pure _
    | f64 => exact .bind (.asF64 fl) fun _ => .bind hn fun _ => .pure _
    | str => exact .bind (.deStr hn) fun _ => .pure _
    | dur => exact .deDur hn n
    | time =>
      refine .get fun s => ?_
      split
      · exact .bind hn fun _ => .epochAt _
      · exact .bind (.deDur hn n) fun _ => .epochAt _
    | option t =>
      refine .get fun s => ?_
      split
      · exact .bind hn fun _ => .pure _
      · exact .bind (ih t ht) fun _ => .pure _
    | vec t => exact .deSeq hn n (ih t ht) _
    | linked t => exact .deSeq hn n (ih t ht) _
    | hset t => exact .deSeq hn n (ih t ht) _
    | bset t => exact .deSeq hn n (ih t ht) _
    | array t len =>
      exact .bind (.expectTok hn _ _) fun _ =>
        .bind (.repeatM (.bind (ih t ht) fun _ => .bind (.eatComma hn _ _) fun _ => .pure _) _) fun _ =>
          .bind (.expectTok hn _ _) fun _ => .pure _
    | pair a b => simp [noTuple] at ht
    | triple a b c => simp [noTuple] at ht
    | quad a b c d => simp [noTuple] at ht
    | hmap k v =>
      simp only [noTuple, Bool.and_eq_true] at ht
      exact .deMap hn n (ih k ht.1) (ih v ht.2) _
    | bmap k v =>
      simp only [noTuple, Bool.and_eq_true] at ht
      exact .deMap hn n (ih k ht.1) (ih v ht.2) _
    | box t => exact .bind (ih t ht) fun _ => .pure _
    | named i =>
      simp only [deJson]
      cases hd : env.defs[i]? with
      | none => exact .oof
      | some d =>
        have hm := hmem hd
        cases d with
        | struct fs cd nul =>
          refine .bind (.deJsonNamed hn n cd fun f hf => ?_) fun _ => .pure _
          have := hm f.ty (List.mem_map.2 ⟨f, hf, rfl⟩)
          exact ⟨ih _ this, fun t ht => ih t (hopt ht this)⟩
        | tuple ts tr =>
          have hts : ∀ t ∈ ts, Exact (deJson env fl n t) := fun t ht => ih t (hm t ht)
          exact .deJsonTupleStruct hn tr hts
        | enum vars =>
          refine .get fun s => ?_
          split
          · refine .bind (.expectTok hn _ _) fun _ => .bind (.expectTok hn _ _) fun _ => .bind (.expectTok hn _ _) fun _ =>
              .get fun s => ?_
            cases hf : findVariant vars false s.strbuf with
            | none => exact .errEnum _
            | some j =>
              have hi := (List.findIdx?_eq_some_iff_getElem.1 hf).1
              have hg : vars.getD j { name := [], shape := .unit } = vars[j] := by
                rw [List.getD_eq_getElem?_getD, List.getElem?_eq_getElem hi]; rfl
              have hv : vars[j] ∈ vars := List.getElem_mem _
              simp only [hg]
              refine .bind ?_ fun _ => .bind (.expectTok hn _ _) fun _ => .pure _
              have hm' : ∀ t, t ∈ (match vars[j].shape with
                | .unit => []
                | .tuple ts => ts
                | .named fs => fs.map Field.ty) → noTuple t = true := fun t ht =>
                hm t (List.mem_flatMap.2 ⟨_, hv, ht⟩)
              cases hsh : vars[j].shape with
              | unit => exact .pure _
              | tuple ts =>
                rw [hsh] at hm'
                exact .bind (.expectTok hn _ _) fun _ => .bind (.deTysEat (.eatComma hn _ _) fun t ht => ih t (hm' t ht)) fun _ =>
                  .bind (.expectTok hn _ _) fun _ => .pure _
              | named fs =>
                rw [hsh] at hm'
                refine .deJsonNamed hn n _ fun f hf => ?_
                have := hm' f.ty (List.mem_map.2 ⟨f, hf, rfl⟩)
                exact ⟨ih _ this, fun t ht => ih t (hopt ht this)⟩
          split
          · refine .bind (.expectTok hn _ _) fun _ => .get fun s => ?_
            split
            · exact .pure _
            · exact .errEnum _
          · exact .errToken _
    | proxied i =>
      simp only [deJson]
      cases hd : env.proxies[i]? with
      | none => exact .oof
      | some px => exact .bind (ih px.ty (h.2 px (List.mem_of_getElem? hd))) fun _ => .pure _

theorem deRon_exact (h : NoTuples env) : ∀ (n : Nat) (t : Ty), noTuple t = true → Exact (deRon env fl n t) := by
  intro n
  induction n with
  | zero => intro t _; exact Exact.oof
  | succ n ih =>
    intro t ht
    have hn : Exact (rNext fl) := Exact.rNext
    have hmem : ∀ {i : Nat} {d}, env.defs[i]? = some d → ∀ t ∈ d.tys, noTuple t = true :=
      fun hd => h.1 _ (List.mem_of_getElem? hd)
    cases t with
    | unit => exact .bind (.expectTok hn _ _) fun _ => .bind (.expectTok hn _ _) fun _ => .pure _
    | bool =>
      refine .get fun s => ?_
      split
      · exact .bind hn fun _ => .pure _
      · exact .bind hn fun _ => .pure _
      · exact .errToken _
    | int k => exact .deInt hn k
    | f32 => exact .bind (.asF64 fl) fun _ => .bind hn fun _ => .pure _
    | f64 => exact .bind (.asF64 fl) fun _ => .bind hn fun _ => .pure _
    | str => exact .bind (.deStr hn) fun _ => .pure _
    | dur => exact .deDur hn n
    | time =>
      refine .get fun s => ?_
      split
      · exact .bind hn fun _ => .epochAt _
      · exact .bind (.deDur hn n) fun _ => .epochAt _
    | option t =>
      refine .get fun s => ?_
      split
      · exact .bind hn fun _ => .pure _
      · exact .bind (ih t ht) fun _ => .pure _
    | vec t => exact .deSeq hn n (ih t ht) _
    | linked t => exact .deSeq hn n (ih t ht) _
    | hset t => exact .deSeq hn n (ih t ht) _
    | bset t => exact .deSeq hn n (ih t ht) _
    | array t len =>
      exact .bind (.expectTok hn _ _) fun _ =>
        .bind (.repeatM (.bind (ih t ht) fun _ => .bind (.eatComma hn _ _) fun _ => .pure _) _) fun _ =>
          .bind (.expectTok hn _ _) fun _ => .pure _
    | pair a b => simp [noTuple] at ht
    | triple a b c => simp [noTuple] at ht
    | quad a b c d => simp [noTuple] at ht
    | hmap k v =>
      simp only [noTuple, Bool.and_eq_true] at ht
      exact .deMap hn n (ih k ht.1) (ih v ht.2) _
    | bmap k v =>
      simp only [noTuple, Bool.and_eq_true] at ht
      exact .deMap hn n (ih k ht.1) (ih v ht.2) _
    | box t => exact .bind (ih t ht) fun _ => .pure _
    | named i =>
      simp only [deRon]
      cases hd : env.defs[i]? with
      | none => exact .oof
      | some d =>
        have hm := hmem hd
        have tys : ∀ ts : List Ty, (∀ t ∈ ts, noTuple t = true) → Exact (deRonTys (rNext fl) (deRon env fl n) ts) :=
          fun ts h => .bind (.expectTok hn _ _) fun _ => .bind (.deTysEat (.eatComma hn _ _) fun t ht => ih t (h t ht)) fun _ =>
            .bind (.expectTok hn _ _) fun _ => .pure _
        cases d with
        | struct fs cd nul =>
          exact .bind (.deRonNamed hn n cd fun f hf => ih _ (hm f.ty (List.mem_map.2 ⟨f, hf, rfl⟩))) fun _ => .pure _
        | tuple ts tr => exact .bind (tys ts hm) fun _ => .pure _
        | enum vars =>
          refine .bind (.expectTok hn _ _) fun _ => .get fun s => ?_
          cases hf : vars.findIdx? (fun v => v.name == s.identbuf) with
          | none => exact .errEnum _
          | some j =>
            have hi := (List.findIdx?_eq_some_iff_getElem.1 hf).1
            have hg : vars.getD j { name := [], shape := .unit } = vars[j] := by
              rw [List.getD_eq_getElem?_getD, List.getElem?_eq_getElem hi]; rfl
            have hv : vars[j] ∈ vars := List.getElem_mem _
            simp only [hg]
            refine .bind ?_ fun _ => .pure _
            have hm' : ∀ t, t ∈ (match vars[j].shape with
              | .unit => []
              | .tuple ts => ts
              | .named fs => fs.map Field.ty) → noTuple t = true := fun t ht =>
              hm t (List.mem_flatMap.2 ⟨_, hv, ht⟩)
            cases hsh : vars[j].shape with
            | unit => exact .pure _
            | tuple ts => rw [hsh] at hm'; exact tys ts hm'
            | named fs =>
              rw [hsh] at hm'
              exact .deRonNamed hn n _ fun f hf => ih _ (hm' f.ty (List.mem_map.2 ⟨f, hf, rfl⟩))
    | proxied i => exact .oof

theorem deserializeJson_exact (h : NoTuples env) {t : Ty} (ht : noTuple t = true) {n : Nat} {input : List Char} {e s}
    (he : deserializeJson env fl n t input = .err e s) : e.line = s.cur.line ∧ e.col = s.cur.col :=
  Exact.bind Exact.jNext (fun _ => deJson_exact h n t ht) _ _ _ he

theorem deserializeRon_exact (h : NoTuples env) {t : Ty} (ht : noTuple t = true) {n : Nat} {input : List Char} {e s}
    (he : deserializeRon env fl n t input = .err e s) : e.line = s.cur.line ∧ e.col = s.cur.col :=
  Exact.bind Exact.rNext (fun _ => deRon_exact h n t ht) _ _ _ he

end NS
