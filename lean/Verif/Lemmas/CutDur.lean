import Verif.Lemmas.CutAll
/-! Reading a JSON text that breaks off: times. -/
namespace NS
variable {fl : FloatOps} {env : Env} {B : Nat}

theorem mem_commaLexemes {tr : Bool} {xs : List (List Lexeme)} {x : List Lexeme} {l : Lexeme} (hx : x ∈ xs) (hl : l ∈ x) : l ∈ commaLexemes tr xs := by
  induction xs with
  | nil => cases hx
  | cons y ys ih =>
    rw [commaLexemes_after]
    rcases List.mem_cons.1 hx with rfl | h
    · simp [hl]
    · have := ih h
      cases ys with
      | nil => cases h
      | cons z zs => simp [afterItem, this]

theorem mem_obj_value {ms : List (JTree × JTree)} {tr : Bool} {m : JTree × JTree} {l : Lexeme} (hm : m ∈ ms) (hl : l ∈ m.2.lexemes) :
    l ∈ (JTree.obj ms tr).lexemes := by
  rw [JTree.lexemes_obj]
  have : l ∈ commaLexemes tr (ms.map memLex) := mem_commaLexemes (List.mem_map.2 ⟨m, hm, rfl⟩) (by simp [memLex, hl])
  have this' : l ∈ commaLexemes tr (ms.map fun m => m.1.lexemes ++ .punct .colon :: m.2.lexemes) := this
  simp [this']

/-- `Duration`. -/
theorem Cuts.deDur {bound : Nat} (hb : bound ≤ 2 ^ 64) {J : JTree} (hJ : ∀ ms tr, J = .obj ms tr → ms.length < B) (hlate : ¬ LateBy bound J) {s : PSt}
    {tail : List Lexeme} (hF : JFeeds fl (J.lexemes ++ tail) s) :
    Cuts B (fun n => NS.deDur (jNext fl) n) s (fun v s' => JFeeds fl tail s' ∧ ∀ a b, v = .dur a b → a < bound) := by
  refine Cuts.expectThen _ fun s1 ht e1 => ?_
  obtain ⟨ms, tr, rfl, hn⟩ := obj_of hF ht
  have hB := hJ ms tr rfl
  have hc : Closer .curlyClose := .inr rfl
  let V : Option Nat × Option Nat → Prop := fun acc =>
    (∀ v, acc.1 = some v → Lexeme.num (.nat v) ∈ (JTree.obj ms tr).lexemes) ∧ ∀ v, acc.2 = some v → Lexeme.num (.nat v) ∈ (JTree.obj ms tr).lexemes
  refine Ends.bind (f := fun n acc => curlyClose (jNext fl) >>= fun _ =>
    match acc.1 with
    | none => errParse "Duration must have secs field".toList
    | some secs =>
      let nanos := acc.2.getD 0
      if nanos > 1000000000 then errRange "Duration nanos must be at most 1,000,000,000".toList
      else durNewP secs nanos)
    (Cuts.whileNot hc V (fun ys s => JFeeds fl (commaLexemes tr (ys.map memLex) ++ .punct .curlyClose :: tail) s)
      (body := fun _ => durItem (jNext fl)) (a := (none, none))
      (fun a s h => ?_) (fun s h => h.imp id fun h => h.1) ms (fun m rest acc s hm hV h => ?_)
      ⟨fun v h => (by cases h), fun v h => (by cases h)⟩ (hn s1 e1) hB) ?_
  · refine Ends.bind (f := fun _ key => durValue (jNext fl) a key >>= fun a => eatCommaCurly (jNext fl) >>= fun _ => Pure.pure a)
      Cuts.deStr fun key t1 _ k1 => ?_
    exact absurd k1.2.1 (h.tok_ne (by decide) rfl)
  · by_cases ho : Over fl s
    · exact .inl ho
    · refine .inr ⟨feeds_tok (members_begin (m :: rest)) (by simp) hc h, ?_⟩
      rw [List.map_cons, commaLexemes_after, memLex] at h
      simp only [List.append_assoc, List.cons_append] at h
      refine Ends.bind (f := fun _ key => durValue (jNext fl) acc key >>= fun a => eatCommaCurly (jNext fl) >>= fun _ => Pure.pure a)
        Cuts.deStr fun key s1 _ k1 => ?_
      have h1 := h.leaf k1.1
      refine Ends.bind (f := fun _ a => eatCommaCurly (jNext fl) >>= fun _ => Pure.pure a)
        (Q := fun a t => JFeeds fl (afterItem tr (rest.map memLex) ++ .punct .curlyClose :: tail) t ∧ (V a ∨ t.tok = .eof)) ?_ fun a s2 _ k2 => ?_
      · have num : ∀ (mx : Nat) (g : Nat → Option Nat × Option Nat), (∀ v, Lexeme.num (.nat v) ∈ (JTree.obj ms tr).lexemes → V (g v)) →
            Cuts B (fun _ => colon (jNext fl) >>= fun _ => NS.u64Range mx >>= fun v => jNext fl >>= fun _ => Pure.pure (g v)) s1
              (fun a t => JFeeds fl (afterItem tr (rest.map memLex) ++ .punct .curlyClose :: tail) t ∧ (V a ∨ t.tok = .eof)) := by
          intro mx g hg
          refine Ends.bind (f := fun _ _ => NS.u64Range mx >>= fun v => jNext fl >>= fun _ => Pure.pure (g v))
            (h1.expect (by decide) rfl _) fun _ s2 _ h2 => ?_
          refine Ends.bind (f := fun _ v => jNext fl >>= fun _ => Pure.pure (g v)) (Ends.u64Range trivial mx) fun v s3 _ ⟨e, ht3⟩ => ?_
          subst e
          refine Ends.bind (f := fun _ _ => Pure.pure (g v)) Cuts.nx fun _ s4 _ h4 => ?_
          have lf : Cuts.Leaf fl s3 () s4 := ⟨.inl (by rw [ht3]; rfl), s3, rfl, h4⟩
          refine Cuts.pure ⟨h2.leaf lf, ?_⟩
          rcases JTree.cases_tok h2 with (h | ⟨_, h⟩) | ⟨l, _, hl, _, _, hv, _⟩ | ⟨_, _, _, h⟩ | ⟨_, _, _, h⟩
          · rw [ht3] at h; cases h
          · exact .inr (h s3 s4 rfl h4)
          · refine .inl (hg v (mem_obj_value hm ?_))
            rw [hv v (hl.symm.trans ht3), JTree.lexemes]
            exact List.mem_singleton.2 rfl
          · rw [ht3] at h; cases h
          · rw [ht3] at h; cases h
        unfold durValue
        split
        · split
          · exact Ends.fail trivial _
          · exact num _ (fun v => (some v, acc.2)) fun v hv => ⟨fun w hw => (by injection hw with hw; exact hw ▸ hv), hV.2⟩
        split
        · split
          · exact Ends.fail trivial _
          · exact num _ (fun v => (acc.1, some v)) fun v hv => ⟨hV.1, fun w hw => (by injection hw with hw; exact hw ▸ hv)⟩
        · exact Ends.fail trivial _
      · rcases k2.2 with hv | he
        · exact Ends.bind (f := fun _ _ => Pure.pure a) (k2.1.eat hc _) fun _ s4 _ h4 => Cuts.pure ⟨hv, h4⟩
        · exact Ends.bind (f := fun _ _ => Pure.pure a) ((Over.eof he).eat hc _ (Q := fun _ _ => False)) fun _ _ _ h => h.elim
  · intro acc s2 _ ⟨hV, h2, _⟩
    refine Ends.bind (f := fun _ _ =>
      match acc.1 with
      | none => errParse "Duration must have secs field".toList
      | some secs =>
        let nanos := acc.2.getD 0
        if nanos > 1000000000 then errRange "Duration nanos must be at most 1,000,000,000".toList
        else durNewP secs nanos) (JFeeds.expect (ls := tail) h2 (by decide) rfl _) fun _ s3 _ h3 => ?_
    cases h1 : acc.1 with
    | none => exact Ends.fail trivial _
    | some secs =>
      have hs := hV.1 secs h1
      simp only
      split
      · exact Ends.fail trivial _
      · rename_i hle
        refine ⟨durNewP secs (acc.2.getD 0) s3, ?_, fun _ _ => rfl⟩
        have hsb : secs < bound := Nat.lt_of_not_le fun h => hlate ⟨secs, hs, .inl h⟩
        unfold durNewP
        split
        · exact ⟨trivial, h3, fun a b e => (by injection e with e; omega)⟩
        · rename_i hge
          have he : acc.2.getD 0 = 1000000000 := by omega
          have h2' : acc.2 = some 1000000000 := by
            cases h : acc.2 with
            | none => rw [h] at he; exact absurd he (by decide)
            | some w => rw [h] at he; exact congrArg some he
          have hsb' : secs + 1 < bound := Nat.lt_of_not_le fun h => hlate ⟨secs, hs, .inr ⟨h, hV.2 _ h2'⟩⟩
          rw [he, if_pos (show secs + 1000000000 / 1000000000 ≤ u64Max by unfold u64Max; omega)]
          exact ⟨trivial, h3, fun a b e => (by injection e with e; omega)⟩

end NS
