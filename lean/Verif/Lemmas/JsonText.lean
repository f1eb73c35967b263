import Verif.Lemmas.JsonRefine4
import Verif.Spec.JsonSafe
/-! Texts that the JSON writer produces, as lexemes. -/
namespace NS
variable {fl : FloatOps} {env : Env}

/-! ## Characters and strings -/

theorem digitChar_hex {v : Nat} (h : v < 16) : HexDig v.digitChar v := by
  rw [← hexVal_iff]; exact hexVal_digitChar h

theorem hex4_spec {n : Nat} (h : n < 65536) : Hex4 (hex4 n) n := by
  refine ⟨_, _, _, _, n / 4096 % 16, n / 256 % 16, n / 16 % 16, n % 16, rfl, digitChar_hex (by omega), digitChar_hex (by omega),
    digitChar_hex (by omega), digitChar_hex (by omega), ?_⟩
  omega

theorem StrLit.append {a b x y} (h : StrLit a x) (h' : StrLit b y) : StrLit (a ++ b) (x ++ y) := by
  induction h with
  | nil => exact h'
  | plain h1 h2 h3 _ ih => exact .plain h1 h2 h3 ih
  | esc h1 h2 _ ih => exact .esc h1 h2 ih
  | unicode h1 h2 _ ih =>
    simp only [List.cons_append, List.append_assoc]
    exact .unicode h1 h2 ih
  | surrogates h1 h2 h3 h4 h5 h6 h7 _ ih =>
    simp only [List.cons_append, List.append_assoc]
    exact .surrogates h1 h2 h3 h4 h5 h6 h7 ih

/-- One written character. -/
theorem jsonEsc_lit (c : Char) : StrLit (jsonEsc c) [c] := by
  unfold jsonEsc
  split
  · rename_i h; subst h; exact .esc (c := 'b') (by decide) (by decide) .nil
  split
  · rename_i h; subst h; exact .esc (c := 'f') (by decide) (by decide) .nil
  split
  · rename_i h; subst h; exact .esc (c := 'n') (by decide) (by decide) .nil
  split
  · rename_i h; subst h; exact .esc (c := 'r') (by decide) (by decide) .nil
  split
  · rename_i h; subst h; exact .esc (c := 't') (by decide) (by decide) .nil
  split
  · rename_i h
    have := StrLit.unicode (h := hex4 c.toNat) (v := c.toNat) (c := c) (b := []) (s := []) (hex4_spec (by omega)) rfl .nil
    simpa using this
  split
  · rename_i h; subst h; exact .esc (c := '\\') (by decide) (by decide) .nil
  split
  · rename_i h; subst h; exact .esc (c := '"') (by decide) (by decide) .nil
  · rename_i h1 h2 h3
    refine .plain h3 h2 ?_ .nil
    rintro rfl
    exact h1 (.inl (by decide))

theorem jsonStr_lit (s : List Char) : StrLit (s.flatMap jsonEsc) s := by
  induction s with
  | nil => exact .nil
  | cons c s ih =>
    have := (jsonEsc_lit c).append ih
    simpa using this

theorem plainName_lit {s : List Char} (h : PlainName s) : StrLit s s := by
  induction s with
  | nil => exact .nil
  | cons c s ih =>
    obtain ⟨h1, h2, h3⟩ := h c (List.mem_cons_self ..)
    exact .plain h1 h2 h3 (ih fun d hd => h d (List.mem_cons_of_mem _ hd))

/-! ## Numbers -/

theorem digits_showNat (n : Nat) : Digits (showNat n) := by
  intro c hc
  have := showNat_dig hc
  simpa [isDig] using this

theorem decimal_showNat (n : Nat) : decimal (showNat n) = n := by
  rw [← digitsVal_decimal, digitsVal_showNat]

theorem showNat_lit {n : Nat} (h : n ≤ u64Max) : NumLit fl (showNat n) (.nat n) := by
  have := NumLit.nat (fl := fl) (sg := []) (ds := showNat n) (.inl rfl) (showNat_ne_nil n) (digits_showNat n)
    (by rw [decimal_showNat]; exact h)
  rwa [decimal_showNat] at this

/-- The number that an integer is written as. -/
def intNum (i : Int) : Num := if i < 0 then .neg i else .nat i.toNat

theorem showInt_lit {i : Int} (h1 : -(2 ^ 63) ≤ i) (h2 : i ≤ u64Max) : NumLit fl (showInt i) (intNum i) := by
  unfold showInt intNum
  by_cases hi : i < 0
  · rw [if_pos hi, if_pos hi]
    have hle : i.natAbs ≤ 2 ^ 63 := by omega
    have := NumLit.neg (fl := fl) (ds := showNat i.natAbs) (showNat_ne_nil _) (digits_showNat _)
      (by rw [decimal_showNat]; exact hle)
    rw [decimal_showNat] at this
    rwa [show (-(i.natAbs : Int)) = i by omega] at this
  · rw [if_neg hi, if_neg hi]
    rw [show i.natAbs = i.toNat by omega]
    exact showNat_lit (by omega)

theorem floatLit_num {s : List Char} {x} (h : FloatLit s) (hp : fl.parse64 s = some x) : NumLit fl s (.float x) := by
  obtain ⟨sg, ip, fr, ex, rfl, h1, h2, h3, h4, h5, h6, _⟩ := h
  refine NumLit.float (by rcases h1 with h | h <;> simp [h]) (by simp [h2]) h3 ?_ ?_ h6 hp
  · rcases h4 with h | ⟨f, h, _, hf⟩
    · exact .inl h
    · exact .inr ⟨f, h, hf⟩
  · rcases h5 with h | ⟨m, y, h, hm, hy, hd⟩
    · exact .inl h
    · exact .inr ⟨'e', m, y, h, .inl rfl, hm, hy, hd⟩

/-! ## Lexeme lists -/

/-- The next character, if any, is a separator or a closing bracket. -/
def SepText (r : List Char) : Prop := ∀ c, r.head? = some c → c ∈ [',', ':', ']', '}']

theorem SepText.nil : SepText [] := by intro c h; simp at h
theorem SepText.cons {c r} (h : c ∈ [',', ':', ']', '}']) : SepText (c :: r) := by
  intro d hd; simp at hd; subst hd; exact h

theorem SepText.jsep {r} (h : SepText r) (l : Lexeme) : JSep l r := by
  have key : ∀ c, r.head? = some c → c = ',' ∨ c = ':' ∨ c = ']' ∨ c = '}' := fun c hc => by simpa using h c hc
  cases l with
  | num t =>
    intro c hc
    rcases key c hc with rfl | rfl | rfl | rfl <;> decide
  | word w =>
    intro c hc
    rcases key c hc with rfl | rfl | rfl | rfl <;> decide
  | _ => trivial

/-- `txt` spells `ls` when followed by a separator. -/
def LSpells (fl : FloatOps) (ls : List Lexeme) (txt : List Char) : Prop :=
  ∀ ls' r tail, SepText r → JDoc fl ls' r tail → JDoc fl (ls ++ ls') (txt ++ r) tail

theorem LSpells.nil : LSpells fl [] [] := fun _ _ _ _ h => h

theorem LSpells.single {l s} (h : JSpell fl l s) : LSpells fl [l] s := by
  intro ls r tail hr hd
  exact JDoc.cons (w := []) .nil h (hr.jsep l) hd

theorem LSpells.append {a b x y} (ha : LSpells fl a x) (hb : LSpells fl b y)
    (hs : ∀ r, SepText r → SepText (y ++ r)) : LSpells fl (a ++ b) (x ++ y) := by
  intro ls r tail hr hd
  rw [List.append_assoc, List.append_assoc]
  exact ha _ _ _ (hs r hr) (hb _ _ _ hr hd)

/-- Punctuation before anything. -/
theorem LSpells.punct {t c ls y} (h : JSpell fl (.punct t) [c]) (hl : LSpells fl ls y) :
    LSpells fl (.punct t :: ls) (c :: y) := by
  intro ls' r tail hr hd
  exact JDoc.cons (w := []) (s := [c]) .nil h trivial (hl _ _ _ hr hd)

theorem LSpells.str {s b ls y} (h : StrLit b s) (hl : LSpells fl ls y) :
    LSpells fl (.str s :: ls) ('"' :: (b ++ ['"']) ++ y) := by
  intro ls' r tail hr hd
  have := JDoc.cons (w := []) (s := '"' :: (b ++ ['"'])) .nil (JSpell.str h) (by trivial) (hl _ _ _ hr hd)
  simpa using this

/-- A space may precede. -/
theorem JDoc.space {l ls txt tail} (h : JDoc fl (l :: ls) txt tail) : JDoc fl (l :: ls) (' ' :: txt) tail := by
  cases h with
  | cons hw hs hj hd => exact JDoc.cons (w := ' ' :: _) (.space (.inl rfl) hw) hs hj hd

theorem LSpells.space {l ls y} (h : LSpells fl (l :: ls) y) : LSpells fl (l :: ls) (' ' :: y) := by
  intro ls' r tail hr hd
  exact (h ls' r tail hr hd).space

/-- Items with separators. -/
theorem LSpells.join {sep : List Char} (hsep : sep = [','] ∨ sep = [',', ' ']) :
    ∀ {lss : List (List Lexeme)} {txts : List (List Char)}, lss.length = txts.length →
      (∀ p ∈ lss.zip txts, LSpells fl p.1 p.2 ∧ p.1 ≠ []) →
      LSpells fl (commaLexemes false lss) (joinSep sep txts)
  | [], [], _, _ => LSpells.nil
  | [x], [t], _, h => by
    have := (h (x, t) (by simp)).1
    simpa [commaLexemes, joinSep] using this
  | x :: y :: r, t :: u :: v, hl, h => by
    have h1 := h (x, t) (by simp)
    have ih := LSpells.join hsep (lss := y :: r) (txts := u :: v) (by simpa using hl)
      (fun p hp => h p (List.mem_cons_of_mem _ hp))
    simp only [commaLexemes, joinSep, List.append_assoc]
    have hne : ∃ l ls, commaLexemes false (y :: r) = l :: ls := by
      have hy := (h (y, u) (by simp)).2
      obtain ⟨s, e, _⟩ := commaLexemes_cons false y r []
      simp only [List.append_nil] at e
      cases y with
      | nil => exact absurd rfl hy
      | cons a b => exact ⟨a, _, by rw [e]; rfl⟩
    refine LSpells.append h1.1 ?_ ?_
    · rcases hsep with rfl | rfl
      · exact LSpells.punct .comma ih
      · obtain ⟨l, ls, e⟩ := hne
        rw [e] at ih ⊢
        exact LSpells.punct .comma ih.space
    · intro r _
      rcases hsep with rfl | rfl <;> exact SepText.cons (by simp)
  | [], _ :: _, h, _ => by simp at h
  | _ :: _, [], h, _ => by simp at h
  | [_], _ :: _ :: _, h, _ => by simp at h
  | _ :: _ :: _, [_], h, _ => by simp at h

/-- `txt` spells the tree `J`. -/
def Spells (fl : FloatOps) (J : JTree) (txt : List Char) : Prop := LSpells fl J.lexemes txt

theorem Spells.text {J : JTree} {txt} (h : Spells fl J txt) : JText fl J txt := by
  refine ⟨[], .inl .nil, ?_⟩
  have := h [] [] [] .nil .nil
  simpa using this

theorem Spells.arr {sep : List Char} (hsep : sep = [','] ∨ sep = [',', ' ']) {xs : List JTree} {txts : List (List Char)}
    (hl : xs.length = txts.length) (h : ∀ p ∈ xs.zip txts, Spells fl p.1 p.2) :
    Spells fl (.arr xs false) ('[' :: (joinSep sep txts ++ [']'])) := by
  unfold Spells
  rw [JTree.lexemes_arr]
  refine LSpells.punct .blockOpen (LSpells.append (LSpells.join hsep (by simpa using hl) ?_) (.single .blockClose) ?_)
  · intro p hp
    rw [List.zip_map_left] at hp
    obtain ⟨q, hq, rfl⟩ := List.mem_map.1 hp
    refine ⟨h q hq, ?_⟩
    obtain ⟨l, ls, e, _⟩ := q.1.lexemes_start
    simp [e]
  · intro r _; exact SepText.cons (by simp)

/-- A member as written. -/
def MSpells (fl : FloatOps) (m : JTree × JTree) (txt : List Char) : Prop :=
  LSpells fl (m.1.lexemes ++ .punct .colon :: m.2.lexemes) txt

theorem MSpells.of {k v : JTree} {x y} (hk : Spells fl k x) (hv : Spells fl v y) : MSpells fl (k, v) (x ++ ':' :: y) :=
  LSpells.append hk (LSpells.punct .colon hv) fun r _ => SepText.cons (by simp)

theorem label_spells {nm : List Char} (h : PlainName nm) : Spells fl (.str nm) (jsonLabel nm) := by
  unfold Spells
  rw [JTree.lexemes]
  exact .single (.str (plainName_lit h))

theorem member_spells {nm : List Char} (h : PlainName nm) {v : JTree} {y} (hv : Spells fl v y) :
    MSpells fl (.str nm, v) (jsonMember nm y) := MSpells.of (label_spells h) hv

theorem Spells.obj {ms : List (JTree × JTree)} {txts : List (List Char)}
    (hl : ms.length = txts.length) (h : ∀ p ∈ ms.zip txts, MSpells fl p.1 p.2) :
    Spells fl (.obj ms false) ('{' :: (joinSep [','] txts ++ ['}'])) := by
  unfold Spells
  rw [JTree.lexemes_obj]
  refine LSpells.punct .curlyOpen (LSpells.append (LSpells.join (.inl rfl) (by simpa using hl) ?_) (.single .curlyClose) ?_)
  · intro p hp
    rw [List.zip_map_left] at hp
    obtain ⟨q, hq, rfl⟩ := List.mem_map.1 hp
    exact ⟨h q hq, by simp⟩
  · intro r _; exact SepText.cons (by simp)

/-- Members with a trailing comma. -/
theorem Spells.obj_of {ms : List (JTree × JTree)} {tr : Bool} {body : List Char}
    (h : LSpells fl (commaLexemes tr (ms.map fun m => m.1.lexemes ++ .punct .colon :: m.2.lexemes)) body) :
    Spells fl (.obj ms tr) ('{' :: (body ++ ['}'])) := by
  unfold Spells
  rw [JTree.lexemes_obj]
  exact LSpells.punct .curlyOpen (LSpells.append h (.single .curlyClose) fun r _ => SepText.cons (by simp))

end NS
