import Verif.Spec.JsonValid
import Verif.Lemmas.JsonRoundTrip
import Verif.Props.JsonStrings
import Verif.Props.JsonNumbers
/-! The JSON writer produces RFC 8259 values. -/
namespace NS
variable {env : Env} {fl : FloatOps}

theorem Rfc.Ws.nil : Rfc.Ws [] := by simp [Rfc.Ws]

theorem rfcName_body {s : List Char} (h : RfcName s) : Rfc.StrBody s s := by
  induction s with
  | nil => exact .nil
  | cons c s ih =>
    have hc := h c (by simp)
    exact .unescaped hc.2.2 (fun e => toNat_ne hc.1 e) (fun e => toNat_ne hc.2.1 e) (ih fun d hd => h d (by simp [hd]))

theorem rfcName_label {s : List Char} (h : RfcName s) : Rfc.Str (jsonLabel s) s :=
  ⟨s, rfl, rfcName_body h⟩

theorem showNat_int (n : Nat) :
    showNat n = ['0'] ∨ ∃ d ds, showNat n = d :: ds ∧ Rfc.Digit d ∧ d ≠ '0' ∧ ∀ c ∈ ds, Rfc.Digit c := by
  have hr := rfc_digits.2 (digits_showNat n)
  by_cases h0 : n = 0
  · subst h0; left; rfl
  · right
    rcases showNat_head n with e | hh
    · have h := decimal_showNat n
      rw [e] at h; exact absurd h.symm h0
    cases e : showNat n with
    | nil => exact absurd e Nat.toDigits_ne_nil
    | cons d ds =>
      rw [e] at hh
      exact ⟨d, ds, rfl, hr d (by simp [e]), by simpa using hh, fun c hc => hr c (by simp [e, hc])⟩

theorem showNat_number (n : Nat) : Rfc.Number (showNat n) :=
  ⟨[], showNat n, [], [], by simp, .inl rfl, showNat_int n, .inl rfl, .inl rfl⟩

theorem showInt_number (i : Int) : Rfc.Number (showInt i) := by
  unfold showInt
  split
  · exact ⟨['-'], showNat i.natAbs, [], [], by simp, .inr rfl, showNat_int _, .inl rfl, .inl rfl⟩
  · exact showNat_number _

theorem floatLit_number {s : List Char} (h : FloatLit s) : Rfc.Number s := by
  obtain ⟨sg, ip, fr, ex, rfl, h1, h2, h3, h4, h5, _, h7⟩ := h
  refine ⟨sg, ip, fr, ex, rfl, h1, ?_, ?_, ?_⟩
  · rcases h7 with h7 | h7
    · exact .inl h7
    · right
      cases ip with
      | nil => exact absurd rfl h2
      | cons d ds =>
        have := rfc_digits.2 h3
        exact ⟨d, ds, rfl, this d (by simp), by simpa using h7, fun c hc => this c (by simp [hc])⟩
  · rcases h4 with h4 | ⟨f, rfl, h, h'⟩
    · exact .inl h4
    · exact .inr ⟨f, rfl, h, rfc_digits.2 h'⟩
  · rcases h5 with h5 | ⟨m, x, rfl, hm, h, h'⟩
    · exact .inl h5
    · exact .inr ⟨'e', m, x, rfl, .inl rfl, by rcases hm with hm | hm <;> simp [hm], h, rfc_digits.2 h'⟩

/-! ## Arrays and objects -/

theorem rfc_elements {ws : List Char} (hws : Rfc.Ws ws) (txts : List (List Char)) (h : ∀ x ∈ txts, Rfc.Value x)
    (hne : txts ≠ []) : ∀ a, Rfc.Ws a → Rfc.Elements (a ++ joinSep (',' :: ws) txts) := by
  induction txts with
  | nil => exact absurd rfl hne
  | cons x txts ih =>
    intro a ha
    cases txts with
    | nil =>
      have := Rfc.Elements.one ha (h x (by simp)) Rfc.Ws.nil
      simpa [joinSep] using this
    | cons y r =>
      have h1 := ih (fun z hz => h z (by simp [hz])) (by simp) ws hws
      have := Rfc.Elements.cons ha (h x (by simp)) Rfc.Ws.nil h1
      simpa [joinSep] using this

theorem rfc_array {ws : List Char} (hws : Rfc.Ws ws) (txts : List (List Char)) (h : ∀ x ∈ txts, Rfc.Value x) :
    Rfc.Value ('[' :: (joinSep (',' :: ws) txts ++ [']'])) := by
  cases txts with
  | nil => exact .emptyArray Rfc.Ws.nil
  | cons x r => exact .array (by simpa using rfc_elements hws (x :: r) h (by simp) [] Rfc.Ws.nil)

theorem rfc_members (txts : List (List Char)) (h : ∀ x ∈ txts, Rfc.Member x)
    (hne : txts ≠ []) : Rfc.Members (joinSep [','] txts) := by
  induction txts with
  | nil => exact absurd rfl hne
  | cons x txts ih =>
    cases txts with
    | nil => exact .one (h x (by simp))
    | cons y r =>
      have := Rfc.Members.cons (h x (by simp)) (ih (fun z hz => h z (by simp [hz])) (by simp))
      simpa [joinSep] using this

theorem rfc_object (txts : List (List Char)) (h : ∀ x ∈ txts, Rfc.Member x) :
    Rfc.Value ('{' :: (joinSep [','] txts ++ ['}'])) := by
  cases txts with
  | nil => exact .emptyObject Rfc.Ws.nil
  | cons x r => exact .object (rfc_members (x :: r) h (by simp))

theorem rfc_member {k s v : List Char} (hk : Rfc.Str k s) (hv : Rfc.Value v) : Rfc.Member (k ++ ':' :: v) := by
  simpa using Rfc.Member.mk Rfc.Ws.nil hk Rfc.Ws.nil Rfc.Ws.nil hv Rfc.Ws.nil

theorem rfc_named {nm v : List Char} (h : RfcName nm) (hv : Rfc.Value v) : Rfc.Member (jsonMember nm v) :=
  rfc_member (rfcName_label h) hv

theorem durText_value (s n : Nat) : Rfc.Value (durText s n) := by
  have h1 : Rfc.Member (jsonMember ['s', 'e', 'c', 's'] (showNat s)) :=
    rfc_named (by unfold RfcName; decide) (.number (showNat_number s))
  have h2 : Rfc.Member (jsonMember ['n', 'a', 'n', 'o', 's'] (showNat n)) :=
    rfc_named (by unfold RfcName; decide) (.number (showNat_number n))
  unfold durText
  split
  · have := rfc_object [_, _] (fun x hx => by
      rcases List.mem_cons.1 hx with rfl | hx
      · exact h1
      · obtain rfl := List.mem_singleton.1 hx; exact h2)
    simpa [joinSep, jsonMember, jsonLabel] using this
  · have := rfc_object [_] (fun x hx => by
      obtain rfl := List.mem_singleton.1 hx; exact h1)
    simpa [joinSep, jsonMember, jsonLabel] using this

/-! ## Keys -/

theorem stringTy_str (hE : RfcEnvOk env) {k : Ty} (h : StringTy env k) : ∀ a, HasTy env k a → ∃ s, Rfc.Str (serJson env fl k a) s := by
  induction h with
  | str =>
    intro a ha
    cases a <;> simp only [HasTy] at ha
    exact ⟨_, by rw [serJson]; exact jsonStr_rfc _⟩
  | box _ ih =>
    intro a ha
    cases a <;> simp only [HasTy] at ha
    rw [serJson]; exact ih _ ha
  | @units i vars hd hu =>
    intro a ha
    cases a <;> simp only [HasTy, hd] at ha
    rename_i j vs
    cases hj : vars[j]? with
    | none => simp [hj] at ha
    | some v =>
      obtain ⟨nm, rn, sh⟩ := v
      have hm := List.mem_of_getElem? hj
      have : sh = .unit := hu _ hm
      subst this
      simp only [serJson, hd, hj]
      exact ⟨_, rfcName_label ((hE i _ hd) _ hm).1⟩
  | @proxied i px hp _ ih =>
    intro a ha
    cases a <;> simp only [HasTy, hp] at ha
    simp only [serJson, hp]
    exact ih _ ha.1
  | @newtype i t hd _ ih =>
    intro a ha
    cases a <;> simp only [HasTy, hd] at ha
    rename_i vs
    obtain ⟨w, rfl⟩ : ∃ w, vs = [w] := by
      match vs, ha with
      | [w], _ => exact ⟨w, rfl⟩
      | [], hT => simp [TysTy] at hT
      | _ :: _ :: _, hT => simp [TysTy] at hT
    simp only [TysTy] at ha
    simp only [serJson, hd]
    simpa [serJsonTys, joinSep] using ih w ha.1

/-! ## All types -/

theorem serJsonTys_value {ts : List Ty} {vs : List Val} (h : ∀ p ∈ ts.zip vs, Rfc.Value (serJson env fl p.1 p.2)) :
    ∀ x ∈ serJsonTys env fl ts vs, Rfc.Value x := by
  induction ts generalizing vs with
  | nil => simp [serJsonTys]
  | cons t ts ih =>
    cases vs with
    | nil => simp [serJsonTys]
    | cons v vs =>
      intro x hx
      simp only [serJsonTys, List.mem_cons] at hx
      rcases hx with rfl | hx
      · exact h (t, v) (by simp)
      · exact ih (fun p hp => h p (by simp [hp])) x hx

theorem fields_value {nul : Bool} {fs : List Field} {vs : List Val}
    (hn : ∀ f ∈ fs, f.skip = false → RfcName f.key)
    (h : ∀ p ∈ fs.zip vs, p.1.skip = false → Rfc.Value (serJson env fl p.1.ty p.2)) :
    ∀ x ∈ serJsonFields env fl nul fs vs, Rfc.Member x := by
  induction fs generalizing vs with
  | nil => simp [serJsonFields]
  | cons f fs ih =>
    cases vs with
    | nil => simp [serJsonFields]
    | cons v vs =>
      have ih' := ih (vs := vs) (fun g hg => hn g (by simp [hg])) fun p hp => h p (by simp [hp])
      intro x hx
      rw [serJsonFields] at hx
      cases hs : f.skip with
      | true => rw [if_pos hs] at hx; exact ih' x hx
      | false =>
        rw [if_neg (by simp [hs])] at hx
        split at hx
        · split at hx
          · rcases List.mem_cons.1 hx with rfl | hx
            · exact rfc_named (hn f (by simp) hs) .null
            · exact ih' x hx
          · exact ih' x hx
        · rcases List.mem_cons.1 hx with rfl | hx
          · exact rfc_named (hn f (by simp) hs) (h (f, v) (by simp) hs)
          · exact ih' x hx

theorem isNone_iff {v : Val} : v.isNone = true ↔ v = .none := by cases v <;> simp [Val.isNone]

theorem varFields_nil {fs : List Field} {vs : List Val} (hall : ∀ q ∈ fs.zip vs, Omitted q) :
    serJsonVarFields env fl fs vs = [] := by
  induction fs generalizing vs with
  | nil => simp [serJsonVarFields]
  | cons f fs ih =>
    cases vs with
    | nil => simp [serJsonVarFields]
    | cons v vs =>
      rw [serJsonVarFields, if_pos, ih fun q hq => hall q (by simp [hq])]; · rfl
      have := hall (f, v) (by simp)
      exact ⟨this.1, isNone_iff.2 this.2⟩

theorem varFields_value {fs : List Field} {vs : List Val} (hlen : fs.length = vs.length)
    (hn : ∀ f ∈ fs, RfcName f.name)
    (h : ∀ p ∈ fs.zip vs, Rfc.Value (serJson env fl p.1.ty p.2)) (hne : fs ≠ [])
    (hlast : ∀ p, (fs.zip vs).getLast? = some p → ¬ Omitted p) :
    Rfc.Members (serJsonVarFields env fl fs vs) := by
  induction fs generalizing vs with
  | nil => exact absurd rfl hne
  | cons f fs ih =>
    cases vs with
    | nil => simp at hlen
    | cons v vs =>
      have hlen' : fs.length = vs.length := by simpa using hlen
      rw [serJsonVarFields]
      cases fs with
      | nil =>
        cases vs with
        | cons _ _ => simp at hlen'
        | nil =>
          have := hlast (f, v) (by simp)
          rw [if_neg (fun hh => this ⟨hh.1, isNone_iff.1 hh.2⟩)]
          simp only [List.isEmpty_nil, if_true, List.append_nil, serJsonVarFields]
          exact .one (rfc_named (hn f (by simp)) (h (f, v) (by simp)))
      | cons g gs =>
        have ih' := ih hlen' (fun g hg => hn g (by simp [hg])) (fun p hp => h p (by simp [hp])) (by simp) (by
          intro p hp
          apply hlast p
          cases vs with
          | nil => simp at hlen'
          | cons w ws => simpa [List.getLast?_cons] using hp)
        split
        · simpa using ih'
        · simp only [List.isEmpty_cons, Bool.false_eq_true, if_false]
          rw [List.append_assoc]
          exact .cons (rfc_named (hn f (by simp)) (h (f, v) (by simp))) ih'

theorem FieldsTy.length {fs : List Field} {vs : List Val} (h : FieldsTy env fs vs) : fs.length = vs.length := by
  induction fs generalizing vs with
  | nil => cases vs <;> simp [FieldsTy] at h ⊢
  | cons f fs ih =>
    cases vs with
    | nil => simp [FieldsTy] at h
    | cons v vs => simp only [FieldsTy] at h; simp [ih h.2]

theorem fields_of_zip {fs : List Field} {vs : List Val} (hT : FieldsTy env fs vs) {P dflt si us}
    (hH : HoldsFields env P dflt si us fs vs) : ∀ p ∈ fs.zip vs, (us = true → p.1.skip = false) →
      HasTy env p.1.ty p.2 ∧ Holds env P dflt si p.1.ty p.2 := by
  induction fs generalizing vs with
  | nil => simp
  | cons f fs ih =>
    cases vs with
    | nil => simp
    | cons v vs =>
      simp only [FieldsTy] at hT
      simp only [HoldsFields] at hH
      intro p hp hs
      simp only [List.zip_cons_cons, List.mem_cons] at hp
      rcases hp with rfl | hp
      · refine ⟨hT.1, ?_⟩
        have := hH.1
        rwa [if_neg (by rintro ⟨h1, h2⟩; have h3 : f.skip = false := hs h1; simp [h3] at h2)] at this
      · exact ih hT.2 hH.2 p hp hs

theorem json_value (hfl : FloatLaws fl) (hE : RfcEnvOk env) (v : Val) :
    ∀ t, HasTy env t v → RfcExact env t v → Rfc.Value (serJson env fl t v) := by
  induction v using Val.sizeInd with
  | h v ih =>
  intro t hT hX
  have hH := Holds.head hX
  have hseqlt : ∀ vs : List Val, v = .seq vs → ∀ w ∈ vs, sizeOf w < sizeOf v := by
    intro vs e w hw; subst e; have := Val.sizeOf_mem hw; simp; omega
  have hseq : ∀ (t : Ty) (vs : List Val), v = .seq vs → AllTy env t vs →
      HoldsAll env (RfcNodeOk env) Field.absent false t vs →
      Rfc.Value ('[' :: (joinSep [','] (serJsonAll env fl t vs) ++ [']'])) := by
    intro t vs e h1 h2
    refine rfc_array Rfc.Ws.nil _ fun x hx => ?_
    rw [serJsonAll_eq] at hx
    obtain ⟨w, hw, rfl⟩ := List.mem_map.1 hx
    exact ih w (hseqlt vs e w hw) t (AllTy_iff.1 h1 w hw) (HoldsAll_iff.1 h2 w hw)
  have htys : ∀ (ts : List Ty) (vs : List Val), (∀ w ∈ vs, sizeOf w < sizeOf v) → TysTy env ts vs →
      HoldsTys env (RfcNodeOk env) Field.absent false ts vs → ∀ x ∈ serJsonTys env fl ts vs, Rfc.Value x := by
    intro ts vs hs h1 h2
    refine serJsonTys_value fun p hp => ?_
    have := tys_of_zip h1 h2 p hp
    exact ih p.2 (hs _ (List.of_mem_zip hp).2) p.1 this.1 this.2
  have hmap : ∀ (k t' : Ty) (vs : List Val), v = .seq vs → (vs ≠ [] → StringTy env k) →
      EntriesTy env k t' vs → HoldsEntries env (RfcNodeOk env) Field.absent false k t' vs →
      Rfc.Value ('{' :: (joinSep [','] (serJsonEntries env fl k t' vs) ++ ['}'])) := by
    intro k t' vs e hk hT' hH'
    refine rfc_object _ ?_
    have hlt := hseqlt vs e
    by_cases hne : vs = []
    · subst hne; simp [serJsonEntries]
    replace hk := hk hne
    clear hne e hseq
    induction vs with
    | nil => simp [serJsonEntries]
    | cons w ws ihw =>
      cases w with
      | entry a b =>
        simp only [EntriesTy] at hT'
        simp only [HoldsEntries] at hH'
        intro x hx
        simp only [serJsonEntries, List.mem_cons] at hx
        rcases hx with rfl | hx
        · have := hlt (.entry a b) (by simp)
          simp only [Val.entry.sizeOf_spec] at this
          obtain ⟨s, hs⟩ := stringTy_str (fl := fl) hE hk a hT'.1
          exact rfc_member hs (ih b (by omega) _ hT'.2.1 hH'.2.1)
        · exact ihw hT'.2.2 hH'.2.2 (fun w hw => hlt w (by simp [hw])) x hx
      | _ => simp [EntriesTy] at hT'
  cases t with
  | unit =>
    cases v <;> simp [HasTy] at hT
    rw [serJson]; exact .null
  | bool =>
    cases v <;> simp [HasTy] at hT
    rename_i b
    cases b
    · simp only [serJson]; exact .false
    · simp only [serJson]; exact .true
  | int k =>
    cases v <;> simp [HasTy] at hT
    rw [serJson]; exact .number (showInt_number _)
  | f32 =>
    cases v <;> simp [HasTy] at hT
    rw [serJson]; exact .number (floatLit_number (hfl.lit32 _ (hH.2.1 _ rfl)))
  | f64 =>
    cases v <;> simp [HasTy] at hT
    rw [serJson]; exact .number (floatLit_number (hfl.lit64 _ (hH.1 _ rfl)))
  | str =>
    cases v <;> simp [HasTy] at hT
    rw [serJson]; exact .string (jsonStr_rfc _)
  | dur =>
    cases v <;> simp only [HasTy] at hT
    rw [serJson]; exact durText_value _ _
  | time =>
    cases v <;> simp only [HasTy] at hT
    rw [serJson]
    split
    · exact durText_value _ _
    · exact .null
  | option t =>
    cases v <;> simp only [HasTy] at hT
    · rw [serJson]; exact .null
    · simp only [RfcExact, Holds] at hX
      rw [serJson]; exact ih _ (by simp) t hT hX.2
  | vec t =>
    cases v <;> simp only [HasTy] at hT
    simp only [RfcExact, Holds] at hX
    rw [serJson]; exact hseq _ _ rfl hT.1 hX.2
  | linked t =>
    cases v <;> simp only [HasTy] at hT
    simp only [RfcExact, Holds] at hX
    rw [serJson]; exact hseq _ _ rfl hT.1 hX.2
  | hset t =>
    cases v <;> simp only [HasTy] at hT
    simp only [RfcExact, Holds] at hX
    rw [serJson]; exact hseq _ _ rfl hT.1 hX.2
  | bset t =>
    cases v <;> simp only [HasTy] at hT
    simp only [RfcExact, Holds] at hX
    rw [serJson]; exact hseq _ _ rfl hT.1 hX.2
  | array t len =>
    cases v <;> simp only [HasTy] at hT
    simp only [RfcExact, Holds] at hX
    rw [serJson]; exact hseq _ _ rfl hT.1 hX.2
  | pair a b =>
    cases v <;> simp only [HasTy] at hT
    simp only [RfcExact, Holds] at hX
    rw [serJson]; exact rfc_array Rfc.Ws.nil _ (htys _ _ (hseqlt _ rfl) hT hX.2)
  | triple a b c =>
    cases v <;> simp only [HasTy] at hT
    simp only [RfcExact, Holds] at hX
    rw [serJson]; exact rfc_array Rfc.Ws.nil _ (htys _ _ (hseqlt _ rfl) hT hX.2)
  | quad a b c d =>
    cases v <;> simp only [HasTy] at hT
    simp only [RfcExact, Holds] at hX
    rw [serJson]; exact rfc_array Rfc.Ws.nil _ (htys _ _ (hseqlt _ rfl) hT hX.2)
  | hmap k t =>
    cases v <;> simp only [HasTy] at hT
    simp only [RfcExact, Holds] at hX
    rw [serJson]
    exact hmap k t _ rfl (fun hne => hH.2.2.1 k t (.inl rfl) (by simpa using hne)) hT.1 hX.2
  | bmap k t =>
    cases v <;> simp only [HasTy] at hT
    simp only [RfcExact, Holds] at hX
    rw [serJson]
    exact hmap k t _ rfl (fun hne => hH.2.2.1 k t (.inr rfl) (by simpa using hne)) hT.1 hX.2
  | box t =>
    cases v <;> simp only [HasTy] at hT
    simp only [RfcExact, Holds] at hX
    rw [serJson]; exact ih _ (by simp) t hT hX.2
  | proxied i =>
    cases v <;> simp only [HasTy] at hT
    simp only [RfcExact, Holds] at hX
    cases hpx : env.proxies[i]? with
    | none => rw [hpx] at hT; exact absurd hT id
    | some px =>
      rw [hpx] at hT hX
      simp only at hT hX
      simp only [serJson, hpx]
      exact ih _ (by simp; omega) px.ty hT.1 hX.2
  | named i =>
    cases v <;> simp only [HasTy] at hT
    · rename_i vs
      have hlt : ∀ w ∈ vs, sizeOf w < sizeOf (Val.struct vs) := by
        intro w hw; have := Val.sizeOf_mem hw; simp; omega
      simp only [RfcExact, Holds] at hX
      cases hdf : env.defs[i]? with
      | none => rw [hdf] at hT; exact absurd hT id
      | some d =>
        rw [hdf] at hT hX
        have hdo := hE i d hdf
        cases d with
        | enum vars => exact absurd hT id
        | struct fs cd nul =>
          simp only at hT hX
          simp only [serJson, hdf]
          refine rfc_object _ (fields_value hdo fun p hp hs => ?_)
          have := fields_of_zip hT hX.2 p hp (fun _ => hs)
          exact ih p.2 (hlt _ (List.of_mem_zip hp).2) _ this.1 this.2
        | tuple ts tr =>
          simp only at hT hX
          have hv := htys ts vs hlt hT hX.2
          simp only [serJson, hdf]
          split
          · exact .emptyObject Rfc.Ws.nil
          · split
            · rename_i h1 h2
              obtain ⟨t, rfl⟩ : ∃ t, ts = [t] := by
                match ts, h2.2 with
                | [t], _ => exact ⟨t, rfl⟩
              match vs, hT with
              | [w], _ => exact hv _ (by simp [serJsonTys, joinSep])
            · exact rfc_array (ws := [' ']) (by simp [Rfc.Ws]) _ hv
    · rename_i j vs
      have hlt : ∀ w ∈ vs, sizeOf w < sizeOf (Val.variant j vs) := by
        intro w hw; have := Val.sizeOf_mem hw; simp; omega
      simp only [RfcExact, Holds] at hX
      cases hdf : env.defs[i]? with
      | none => rw [hdf] at hT; exact absurd hT id
      | some d =>
        rw [hdf] at hT hX
        have hdo := hE i d hdf
        cases d with
        | struct fs cd nul => exact absurd hT id
        | tuple ts tr => exact absurd hT id
        | enum vars =>
          simp only at hT hX
          cases hj : vars[j]? with
          | none => rw [hj] at hT; exact absurd hT id
          | some va =>
            rw [hj] at hT hX
            have hm := List.mem_of_getElem? hj
            have hnm := (hdo va hm)
            obtain ⟨nm, rn, sh⟩ := va
            have hsingle : ∀ x, Rfc.Value x → Rfc.Value ('{' :: (jsonMember (rn.getD nm) x ++ ['}'])) := by
              intro x hx
              have := rfc_object [_] (fun y hy => by
                obtain rfl := List.mem_singleton.1 hy; exact rfc_named hnm.1 hx)
              simpa [joinSep] using this
            simp only [serJson, hdf, hj]
            cases sh with
            | unit => exact .string (rfcName_label hnm.1)
            | tuple ts =>
              simp only at hT hX
              exact hsingle _ (rfc_array Rfc.Ws.nil _ (htys ts vs hlt hT hX.2))
            | named fs =>
              simp only at hT hX
              have hval : ∀ p ∈ fs.zip vs, Rfc.Value (serJson env fl p.1.ty p.2) := by
                intro p hp
                have := fields_of_zip hT hX.2 p hp (by simp)
                exact ih p.2 (hlt _ (List.of_mem_zip hp).2) _ this.1 this.2
              refine hsingle _ ?_
              by_cases hall : ∀ q ∈ fs.zip vs, Omitted q
              · rw [varFields_nil hall]; exact .emptyObject Rfc.Ws.nil
              · refine .object (varFields_value hT.length (hnm.2 fs rfl) hval ?_ fun p hp ho => ?_)
                · rintro rfl; simp at hall
                · exact hall (hH.2.2.2 i vars j _ fs vs rfl hdf hj rfl rfl p hp ho)

end NS
