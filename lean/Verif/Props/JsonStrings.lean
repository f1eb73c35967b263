import Verif.Lemmas.LexBad
import Verif.Lemmas.JsonRoundTrip
import Verif.Lemmas.JsonTotal
import Verif.Props.ExamplesText
/-! # Properties C15–C17: JSON strings -/
namespace NS
variable {env : Env} {fl : FloatOps} {chk : Bool}

/-- A quoted literal is read as the string it denotes. -/
theorem str_decodes {b s : List Char} (h : StrLit b s) :
    Decodes (fun n => deserializeJson env fl n .str ('"' :: (b ++ ['"']))) (.str s) := by
  have hJ : JText fl (.str s) ('"' :: (b ++ ['"'])) := by
    refine ⟨[], .inl .nil, ?_⟩
    simp only [JTree.lexemes]
    have := JDoc.cons (fl := fl) (l := .str s) (ls := []) (w := []) (r := []) (tail := []) .nil (.str h)
      (by simp [JSep]) .nil
    simpa using this
  exact Settles.decodes (env := env) (t := .str) (v := .str s) ⟨by simp, 1, fun n hn => by
    obtain ⟨m, rfl⟩ : ∃ m, n = m + 1 := ⟨n - 1, by omega⟩
    rfl⟩ hJ

/-! ## C15 -/

/-- **C15**: every string is written without panicking and read back as itself. -/
theorem C15_json_string_roundtrip (s : List Char) :
    ∃ txt, serializeJson env fl chk .str (.str s) = some txt ∧
      Decodes (fun n => deserializeJson env fl n .str txt) (.str s) :=
  ⟨jsonStr s, by simp [serializeJson, visitsEmptyArray, serJson], str_decodes (jsonStr_lit s)⟩

/-- The hypothesis-free statement at a string with a quote, a backslash, control characters, NUL,
DEL and a character outside the basic plane. -/
example : ∃ txt, serializeJson exJEnv toyFloat true .str
      (.str ['"', '\\', '\n', '\x00', '\x1f', '\x7f', Char.ofNat 0x1F600]) = some txt ∧
    Decodes (fun n => deserializeJson exJEnv toyFloat n .str txt)
      (.str ['"', '\\', '\n', '\x00', '\x1f', '\x7f', Char.ofNat 0x1F600]) :=
  C15_json_string_roundtrip _

/-! ## C16 -/

theorem Rfc.StrBody.append {a b x y} (h : Rfc.StrBody a x) (h' : Rfc.StrBody b y) :
    Rfc.StrBody (a ++ b) (x ++ y) := by
  induction h with
  | nil => exact h'
  | unescaped h1 h2 h3 _ ih => exact .unescaped h1 h2 h3 ih
  | short h1 _ ih => exact .short h1 ih
  | unicode h1 h2 _ ih =>
    simp only [List.cons_append, List.append_assoc]
    exact .unicode h1 h2 ih
  | pair h1 h2 h3 h4 h5 h6 h7 _ ih =>
    simp only [List.cons_append, List.append_assoc]
    exact .pair h1 h2 h3 h4 h5 h6 h7 ih

theorem toNat_ne {c d : Char} (h : c ≠ d) : c.toNat ≠ d.toNat := fun e => h (Char.ext (by
  have : c.val.toNat = d.val.toNat := e
  exact UInt32.toNat_inj.1 this))

theorem hex4_rfc {n : Nat} (h : n < 65536) : Rfc.Hex4 (hex4 n) n := by
  refine ⟨_, _, _, _, n / 4096 % 16, n / 256 % 16, n / 16 % 16, n % 16, rfl, digitChar_hex (by omega),
    digitChar_hex (by omega), digitChar_hex (by omega), digitChar_hex (by omega), ?_⟩
  omega

theorem jsonEsc_rfc (c : Char) : Rfc.StrBody (jsonEsc c) [c] := by
  unfold jsonEsc
  split
  · rename_i h; subst h; exact .short (by decide) .nil
  split
  · rename_i h; subst h; exact .short (by decide) .nil
  split
  · rename_i h; subst h; exact .short (by decide) .nil
  split
  · rename_i h; subst h; exact .short (by decide) .nil
  split
  · rename_i h; subst h; exact .short (by decide) .nil
  split
  · rename_i h
    have := Rfc.StrBody.unicode (h := hex4 c.toNat) (v := c.toNat) (x := c) (b := []) (s := []) (hex4_rfc (by omega)) rfl .nil
    simpa using this
  split
  · rename_i h; subst h; exact .short (by decide) .nil
  split
  · rename_i h; subst h; exact .short (by decide) .nil
  · rename_i h1 h2 h3
    exact .unescaped (by omega) (toNat_ne h3) (toNat_ne h2) .nil

theorem jsonStr_rfc (s : List Char) : Rfc.Str (jsonStr s) s := by
  refine ⟨s.flatMap jsonEsc, rfl, ?_⟩
  induction s with
  | nil => exact .nil
  | cons c s ih =>
    have := (jsonEsc_rfc c).append ih
    simpa using this

/-- **C16**: the written text is an RFC 8259 string literal that represents the string. -/
theorem C16_json_string_is_rfc8259 (s : List Char) :
    ∃ txt, serializeJson env fl chk .str (.str s) = some txt ∧ Rfc.Str txt s :=
  ⟨_, by simp [serializeJson, visitsEmptyArray, serJson], jsonStr_rfc s⟩

example : ∃ txt, serializeJson exJEnv toyFloat true .str (.str ['"', '\x7f', Char.ofNat 0x1F600]) = some txt ∧
    Rfc.Str txt ['"', '\x7f', Char.ofNat 0x1F600] := C16_json_string_is_rfc8259 _

/-! ## C17 -/

theorem Rfc.StrBody.lit {b s} (h : Rfc.StrBody b s) : StrLit b s := by
  induction h with
  | nil => exact .nil
  | @unescaped c b s h1 h2 h3 _ ih =>
    refine .plain ?_ ?_ ?_ ih
    · rintro rfl; exact h2 rfl
    · rintro rfl; exact h3 rfl
    · rintro rfl; simp at h1
  | @short e x b s h1 _ ih =>
    have hx : ∀ v (_ : x.toNat = v), x = Char.ofNat v := fun v h => by rw [← h, Char.ofNat_toNat]
    simp only [Rfc.shortEscapes, List.mem_cons, List.not_mem_nil, or_false, Prod.mk.injEq] at h1
    rcases h1 with ⟨rfl, h⟩ | ⟨rfl, h⟩ | ⟨rfl, h⟩ | ⟨rfl, h⟩ | ⟨rfl, h⟩ | ⟨rfl, h⟩ | ⟨rfl, h⟩ | ⟨rfl, h⟩ <;>
      (rw [hx _ h]; exact .esc (by decide) (by decide) ih)
  | @unicode h v x b s h1 h2 _ ih =>
    refine .unicode ?_ h2 ih
    obtain ⟨a, b, c, d, va, vb, vc, vd, rfl, q1, q2, q3, q4, rfl⟩ := h1
    exact ⟨_, _, _, _, va, vb, vc, vd, rfl, q1, q2, q3, q4, by omega⟩
  | @pair h l hi lo x b s h1 h2 h3 h4 h5 h6 h7 _ ih =>
    have cv : ∀ {h v}, Rfc.Hex4 h v → NS.Hex4 h v := by
      rintro h v ⟨a, b, c, d, va, vb, vc, vd, rfl, q1, q2, q3, q4, rfl⟩
      exact ⟨_, _, _, _, va, vb, vc, vd, rfl, q1, q2, q3, q4, by omega⟩
    exact .surrogates (cv h1) (cv h2) h3 (by omega) h5 (by omega) h7 ih

/-- **C17**, reading RFC 8259: every string literal of the RFC is read as the string it represents,
with all its escapes and surrogate pairs, in any letter case. -/
theorem C17_json_reads_rfc8259_strings (txt s : List Char) (h : Rfc.Str txt s) :
    Decodes (fun n => deserializeJson env fl n .str txt) (.str s) := by
  obtain ⟨b, rfl, hb⟩ := h
  exact str_decodes hb.lit

/-- **C17**, single escape: `\uXXXX` of a code unit that is not a surrogate is that character. -/
theorem C17_json_unicode_escape (pre post s s' h : List Char) (v : Nat) (hpre : StrLit pre s)
    (hpost : StrLit post s') (hh : Hex4 h v) (hv : v < 0xD800 ∨ 0xE000 ≤ v) :
    Decodes (fun n => deserializeJson env fl n .str
      ('"' :: (pre ++ '\\' :: 'u' :: (h ++ post) ++ ['"']))) (.str (s ++ Char.ofNat v :: s')) := by
  refine str_decodes (hpre.append (.unicode hh ?_ hpost))
  have := hh.lt
  exact char_toNat_ofNat (by omega)

/-- **C17**, pairs: a lead and a trail surrogate escape are the character of the UTF-16 pair. -/
theorem C17_json_surrogate_pair (pre post s s' h l : List Char) (hi lo : Nat) (hpre : StrLit pre s)
    (hpost : StrLit post s') (hh : Hex4 h hi) (hl : Hex4 l lo) (h1 : 0xD800 ≤ hi) (h2 : hi < 0xDC00)
    (h3 : 0xDC00 ≤ lo) (h4 : lo < 0xE000) :
    Decodes (fun n => deserializeJson env fl n .str
      ('"' :: (pre ++ '\\' :: 'u' :: (h ++ '\\' :: 'u' :: (l ++ post)) ++ ['"'])))
      (.str (s ++ Char.ofNat (0x10000 + (hi - 0xD800) * 0x400 + (lo - 0xDC00)) :: s')) := by
  refine str_decodes (hpre.append (.surrogates hh hl h1 h2 h3 h4 ?_ hpost))
  exact char_toNat_ofNat (by omega)

/-- **C17**, errors: `\u` without four hexadecimal digits, a lone trail surrogate, or a lead
surrogate without a trail, is an error at every type, whatever follows. -/
theorem C17_json_bad_unicode_rejected (t : Ty) (pre s rest : List Char) (hpre : StrLit pre s)
    (hbad : BadUnicode rest) :
    RejectsWith (fun n => deserializeJson env fl n t ('"' :: (pre ++ '\\' :: 'u' :: rest)))
      (.cannotParse "string".toList) := by
  refine ⟨0, fun n _ => ?_⟩
  obtain ⟨l, c, st', h⟩ := jNext_badStr (fl := fl) (st := initSt jcol ('"' :: (pre ++ '\\' :: 'u' :: rest)))
    hpre hbad (by simp [initSt])
  refine ⟨l, c, st', ?_⟩
  show (do jNext fl; deJson env fl n t : PM Val) _ = _
  rw [M.bind_def, h]

example : Decodes (fun n => deserializeJson exJEnv toyFloat n .str
    ('"' :: (['a'] ++ '\\' :: 'u' :: (['D', '8', '3', 'd'] ++ '\\' :: 'u' :: (['d', 'E', '0', '0'] ++ ['b'])) ++ ['"'])))
    (.str (['a'] ++ Char.ofNat (0x10000 + (0xD83D - 0xD800) * 0x400 + (0xDE00 - 0xDC00)) :: ['b'])) := by
  refine C17_json_surrogate_pair _ _ _ _ _ _ _ _ (.plain (by decide) (by decide) (by decide) .nil)
    (.plain (by decide) (by decide) (by decide) .nil) ?_ ?_ (by decide) (by decide) (by decide) (by decide)
  · exact ⟨'D', '8', '3', 'd', 13, 8, 3, 13, rfl, by unfold HexDig; decide, by unfold HexDig; decide,
      by unfold HexDig; decide, by unfold HexDig; decide, rfl⟩
  · exact ⟨'d', 'E', '0', '0', 13, 14, 0, 0, rfl, by unfold HexDig; decide, by unfold HexDig; decide,
      by unfold HexDig; decide, by unfold HexDig; decide, rfl⟩

/-- A reversed pair is rejected. -/
example : RejectsWith (fun n => deserializeJson exJEnv toyFloat n .str
    ('"' :: ([] ++ '\\' :: 'u' :: (['d', 'e', '0', '0'] ++ ['\\', 'u', 'd', '8', '3', 'd', '"']))))
    (.cannotParse "string".toList) :=
  C17_json_bad_unicode_rejected _ _ _ _ .nil (.inr (.inl ⟨_, 0xde00, _, rfl,
    ⟨'d', 'e', '0', '0', 13, 14, 0, 0, rfl, by unfold HexDig; decide, by unfold HexDig; decide,
      by unfold HexDig; decide, by unfold HexDig; decide, rfl⟩, by decide, by decide⟩))

end NS
