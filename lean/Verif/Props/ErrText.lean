import Verif.Lemmas.ErrText
import Verif.Spec.ErrText
import Verif.Props.JsonPos
import Verif.Props.RonHalts
import Verif.Props.Toml
import Verif.Props.JsonObjects
import Verif.Props.RonObjects
import Verif.Props.BinLayout
/-! # Property C83: the texts of errors

`toString n` is the decimal numeral of `n`. -/
namespace NS
variable {env : Env} {fl : FloatOps} {D : DebugOps}

theorem showNat_toString (n : Nat) : showNat n = (toString n).toList := showNat_repr n
theorem showInt_toString (i : Int) : showInt i = (toString i).toList := showInt_repr i

theorem showInt_ofNat (n : Nat) : showInt (n : Int) = showNat n := by simp [showInt]

/-! ## Positions -/

theorem text_shape (a r b c : List Char) {l l' k k' : Nat} (hl : l = l') (hk : k = k') :
    a ++ r ++ (b ++ showNat (l + 1) ++ c ++ showNat (k + 1)) =
      a ++ r ++ b ++ (toString (l' + 1)).toList ++ c ++ (toString (k' + 1)).toList := by
  subst hl; subst hk
  rw [showNat_toString, showNat_toString]
  simp only [List.append_assoc]

theorem text_shape1 (a r b c c1 : List Char) {l l' k : Nat} (hl : l = l') (hk : k = 0) (hc : c ++ ['1'] = c1) :
    a ++ r ++ (b ++ showNat (l + 1) ++ c ++ showNat (k + 1)) = a ++ r ++ b ++ (toString (l' + 1)).toList ++ c1 := by
  subst hl; subst hk; subst hc
  rw [showNat_toString]
  have : showNat (0 + 1) = ['1'] := by decide
  rw [this]
  simp only [List.append_assoc]

theorem col_one : " col:".toList ++ ['1'] = " col:1".toList := by decide

/-- **C83**: a JSON error reads `Json Deserialize error: <why>, line:<l> col:<c>`; for some initial part
`rd` of the input, `l` is one more than the number of newlines in it and `c` one more than the number of
characters after the last of them. -/
theorem C83_json_error_text {n : Nat} {t : Ty} {input : List Char} {e s}
    (he : deserializeJson env fl n t input = .err e s) :
    ∃ rd rest why, input = rd ++ rest ∧
      jsonErrText D fl e = "Json Deserialize error: ".toList ++ why ++ ", line:".toList ++
        (toString (newlines rd + 1)).toList ++ " col:".toList ++ (toString (sinceNewline rd + 1)).toList := by
  obtain ⟨rd, rest, h1, h2, h3⟩ := C33_json_error_position he
  exact ⟨rd, rest, reasonText D fl e.msg, h1, text_shape _ _ _ _ h2 h3⟩

/-- **C83**: the same for RON; the column is always shown as 1. -/
theorem C83_ron_error_text {n : Nat} {t : Ty} {input : List Char} {e s}
    (he : deserializeRon env fl n t input = .err e s) :
    ∃ rd rest why, input = rd ++ rest ∧
      ronErrText D fl e = "Ron Deserialize error: ".toList ++ why ++ ", line:".toList ++
        (toString (newlines rd + 1)).toList ++ " col:1".toList := by
  obtain ⟨rd, rest, h1, h2⟩ := C44_ron_error_line he
  exact ⟨rd, rest, reasonText D fl e.msg, h1, text_shape1 _ _ _ _ _ h2 (C44_ron_column_zero he) col_one⟩

/-- **C83**: a TOML error reads `Toml error: <why>, line:<l> col:1`, where `l` is one more than the number
of newlines read, up to and including the current character. -/
theorem C83_toml_error_text {o : TomlOps} {txt : List Char} {n : Nat} {e : TErr} {s : Cur}
    (h : parseToml o n txt = .err e s) :
    ∃ rd why, txt = rd ++ s.txt.drop 1 ∧
      tomlErrText D o.toFloatOps e = "Toml error: ".toList ++ why ++ ", line:".toList ++
        (toString (newlines rd + 1)).toList ++ " col:1".toList := by
  obtain ⟨⟨rd, h1, h2⟩, h3⟩ := C55_toml_error_position h
  exact ⟨rd, tmsgText D o.toFloatOps e.msg, h1, text_shape1 _ _ _ _ _ h2 h3 col_one⟩

/-! ## What a text says -/

theorem mem3_nospace {a b c : List Char} (ha : ' ' ∉ a) (hb : ' ' ∉ b) (hc : ' ' ∉ c) : ' ' ∉ a ++ b ++ c := by
  simp [ha, hb, hc]

theorem tokText_nospace {t : Tok} (h : t.plain = true) : ' ' ∉ tokText D fl t := by
  cases t
  case f64 => cases h
  case char => cases h
  case u64 n =>
    change ' ' ∉ "U64(".toList ++ showNat n ++ ")".toList
    exact mem3_nospace (by decide +kernel) (showNat_nospace _) (by decide +kernel)
  case i64 i =>
    change ' ' ∉ "I64(".toList ++ showInt i ++ ")".toList
    exact mem3_nospace (by decide +kernel) (showInt_nospace _) (by decide +kernel)
  case bool b =>
    change ' ' ∉ "Bool(".toList ++ dbgBool b ++ ")".toList
    cases b <;> decide +kernel
  all_goals (change ' ' ∉ String.toList _; decide +kernel)

/-- A number for each kind of plain token. -/
def Tok.num : Tok → Nat
  | .ident => 0 | .str => 1 | .bool true => 2 | .bool false => 3 | .bareIdent => 4 | .null => 5 | .colon => 6
  | .curlyOpen => 7 | .curlyClose => 8 | .parenOpen => 9 | .parenClose => 10 | .blockOpen => 11
  | .blockClose => 12 | .comma => 13 | .bof => 14 | .eof => 15 | .u64 _ => 16 | .i64 _ => 17
  | .f64 _ => 18 | .char _ => 19

def tokNames : List (List Char) :=
  ["Ident".toList, "Str".toList, "Bool(true)".toList, "Bool(false)".toList, "BareIdent".toList, "Null".toList,
   "Colon".toList, "CurlyOpen".toList, "CurlyClose".toList, "ParenOpen".toList, "ParenClose".toList,
   "BlockOpen".toList, "BlockClose".toList, "Comma".toList, "Bof".toList, "Eof".toList]

def tokClass : List Char → Nat
  | 'U' :: '6' :: _ => 16
  | 'I' :: '6' :: _ => 17
  | s => tokNames.findIdx (· == s)

theorem tokClass_text {t : Tok} (h : t.plain = true) : tokClass (tokText D fl t) = t.num := by
  cases t
  case f64 => cases h
  case char => cases h
  case u64 n =>
    have a1 : "U64(".toList = ['U', '6', '4', '('] := by decide
    show tokClass ("U64(".toList ++ _ ++ _) = 16
    rw [a1]; rfl
  case i64 n =>
    have a1 : "I64(".toList = ['I', '6', '4', '('] := by decide
    show tokClass ("I64(".toList ++ _ ++ _) = 17
    rw [a1]; rfl
  case bool b =>
    change tokClass ("Bool(".toList ++ dbgBool b ++ ")".toList) = _
    cases b <;> decide +kernel
  all_goals (change tokClass (String.toList _) = _; decide +kernel)

theorem tokText_inj {t t' : Tok} (h : t.plain = true) (h' : t'.plain = true) (he : tokText D fl t = tokText D fl t') : t = t' := by
  have hn := congrArg tokClass he
  rw [tokClass_text h, tokClass_text h'] at hn
  cases t
  case f64 => cases h
  case char => cases h
  case u64 n =>
    cases t' <;> first | (cases hn; done) | skip
    case u64 m => rw [Derive.showNat_inj (List.append_cancel_left (List.append_cancel_right he))]
    case bool b => cases b <;> cases hn
  case i64 n =>
    cases t' <;> first | (cases hn; done) | skip
    case i64 m => rw [showInt_injE (List.append_cancel_left (List.append_cancel_right he))]
    case bool b => cases b <;> cases hn
  case bool b =>
    cases b <;> cases t' <;> first | (cases hn; done) | (rename_i b'; cases b' <;> first | rfl | cases hn)
  all_goals
    cases t' <;> first | rfl | (cases hn; done) | (rename_i b'; cases b' <;> cases hn)

/-- A number for each kind of reason, and how the text tells it. -/
def Reason.num : Reason → Nat
  | .unexpectedKey _ => 0 | .unexpectedToken _ _ => 1 | .missingKey _ => 2 | .noSuchEnum _ => 3
  | .outOfRange _ => 4 | .wrongType _ => 5 | .cannotParse _ => 6

def reasonClass (s : List Char) : Nat :=
  match s.head? with
  | some 'K' => 2
  | some 'E' => 3
  | some 'V' => 4
  | some 'T' => 5
  | some 'C' => 6
  | _ => if s[11]? = some 'k' then 0 else 1

theorem reasonClass_text (r : Reason) : reasonClass (reasonText D fl r) = r.num := by
  cases r
  case unexpectedKey k =>
    have a : "Unexpected key ".toList = ['U', 'n', 'e', 'x', 'p', 'e', 'c', 't', 'e', 'd', ' ', 'k', 'e', 'y', ' '] := by decide
    change reasonClass ("Unexpected key ".toList ++ k) = 0
    rw [a]; rfl
  case unexpectedToken t w =>
    have a : "Unexpected token ".toList = ['U', 'n', 'e', 'x', 'p', 'e', 'c', 't', 'e', 'd', ' ', 't', 'o', 'k', 'e', 'n', ' '] := by decide
    change reasonClass ("Unexpected token ".toList ++ _ ++ _ ++ _ ++ _) = 1
    rw [a]; rfl
  case missingKey k =>
    have a : "Key not found ".toList = 'K' :: "ey not found ".toList := by decide
    change reasonClass ("Key not found ".toList ++ k) = 2
    rw [a]; rfl
  case noSuchEnum k =>
    have a : "Enum not defined ".toList = 'E' :: "num not defined ".toList := by decide
    change reasonClass ("Enum not defined ".toList ++ k) = 3
    rw [a]; rfl
  case outOfRange k =>
    have a : "Value out of range ".toList = 'V' :: "alue out of range ".toList := by decide
    change reasonClass ("Value out of range ".toList ++ k ++ _) = 4
    rw [a]; rfl
  case wrongType k =>
    have a : "Token wrong type ".toList = 'T' :: "oken wrong type ".toList := by decide
    change reasonClass ("Token wrong type ".toList ++ k ++ _) = 5
    rw [a]; rfl
  case cannotParse k =>
    have a : "Cannot parse ".toList = 'C' :: "annot parse ".toList := by decide
    change reasonClass ("Cannot parse ".toList ++ k ++ _) = 6
    rw [a]; rfl

theorem tokens_inj {a b c : List Char} (hb : ∃ q, b = ' ' :: q) {t t' : Tok} (h : t.plain = true) (h' : t'.plain = true) {w w' : List Char}
    (he : a ++ tokText D fl t ++ b ++ w ++ c = a ++ tokText D fl t' ++ b ++ w' ++ c) : t = t' ∧ w = w' := by
  have h1 := List.append_cancel_right he
  simp only [List.append_assoc] at h1
  have h2 := List.append_cancel_left h1
  obtain ⟨q, rfl⟩ := hb
  obtain ⟨h3, h4⟩ := head_space (tokText_nospace h) (tokText_nospace h') h2
  exact ⟨tokText_inj h h' h3, List.append_cancel_left h4⟩

theorem reasonText_inj {r r' : Reason} (he : reasonText D fl r = reasonText D fl r') : SameReason r r' := by
  have hn := congrArg reasonClass he
  rw [reasonClass_text, reasonClass_text] at hn
  cases r <;> cases r' <;> first | (cases hn; done) | skip
  case unexpectedKey.unexpectedKey => left; rw [List.append_cancel_left he]
  case missingKey.missingKey => left; rw [List.append_cancel_left he]
  case noSuchEnum.noSuchEnum => left; rw [List.append_cancel_left he]
  case outOfRange.outOfRange => left; rw [List.append_cancel_left (List.append_cancel_right he)]
  case wrongType.wrongType => left; rw [List.append_cancel_left (List.append_cancel_right he)]
  case cannotParse.cannotParse => left; rw [List.append_cancel_left (List.append_cancel_right he)]
  case unexpectedToken.unexpectedToken t w t' w' =>
    cases h : t.plain && t'.plain
    · exact .inr ⟨t, w, t', w', rfl, rfl, h⟩
    · rw [Bool.and_eq_true] at h
      obtain ⟨h1, h2⟩ := tokens_inj ⟨"expected ".toList, by decide⟩ h.1 h.2 he
      left; rw [h1, h2]

/-- **C83**: the text of a JSON error tells line, column and reason. -/
theorem C83_json_error_text_tells {e e' : PErr} (h : jsonErrText D fl e = jsonErrText D fl e') :
    e.line = e'.line ∧ e.col = e'.col ∧ SameReason e.msg e'.msg := by
  obtain ⟨h1, h2, h3⟩ := posText_inj h
  exact ⟨h2, h3, reasonText_inj (List.append_cancel_left h1)⟩

/-- **C83**: the text of a RON error tells line, column and reason. -/
theorem C83_ron_error_text_tells {e e' : PErr} (h : ronErrText D fl e = ronErrText D fl e') :
    e.line = e'.line ∧ e.col = e'.col ∧ SameReason e.msg e'.msg := by
  obtain ⟨h1, h2, h3⟩ := posText_inj h
  exact ⟨h2, h3, reasonText_inj (List.append_cancel_left h1)⟩

/-- **C83**: the text of a TOML error tells line and column, and of an unreadable literal its kind. -/
theorem C83_toml_error_text_tells {e e' : TErr} (h : tomlErrText D fl e = tomlErrText D fl e') :
    e.line = e'.line ∧ e.col = e'.col ∧
      ((∃ w, e.msg = .parse w ∧ e'.msg = .parse w) ∨ ∃ t t', e.msg = .token t ∧ e'.msg = .token t') := by
  obtain ⟨h1, h2, h3⟩ := posText_inj h
  refine ⟨h2, h3, ?_⟩
  have h4 := List.append_cancel_left h1
  have a : "Unexpected token ".toList = 'U' :: "nexpected token ".toList := by decide
  have b : "Cannot parse toml ".toList = 'C' :: "annot parse toml ".toList := by decide
  cases hm : e.msg with
  | token t =>
    cases hm' : e'.msg with
    | token t' => exact .inr ⟨t, t', rfl, rfl⟩
    | parse w =>
      rw [hm, hm'] at h4
      change "Unexpected token ".toList ++ _ ++ _ = "Cannot parse toml ".toList ++ _ ++ _ at h4
      rw [a, b] at h4
      exact absurd (List.cons.inj h4).1 (by decide)
  | parse w =>
    cases hm' : e'.msg with
    | token t' =>
      rw [hm, hm'] at h4
      change "Cannot parse toml ".toList ++ _ ++ _ = "Unexpected token ".toList ++ _ ++ _ at h4
      rw [a, b] at h4
      exact absurd (List.cons.inj h4).1 (by decide)
    | parse w' =>
      rw [hm, hm'] at h4
      rw [List.append_cancel_left (List.append_cancel_right h4)]
      exact .inl ⟨w', rfl, rfl⟩

/-! ## Binary -/

theorem dig_space : isDig ' ' = false := by decide

/-- **C83**: the text of a binary error tells the error. -/
theorem C83_bin_error_text_tells {e e' : BinErr} (h : binErrText e = binErrText e') : e = e' := by
  have p1 : "Bin deserialize error at:".toList = "Bin deserialize error at".toList ++ [':'] := by decide
  have p2 : "Bin deserialize error at ".toList = "Bin deserialize error at".toList ++ [' '] := by decide
  have q1 : " wanted:".toList = ' ' :: "wanted:".toList := by decide
  have q2 : " bytes but max size is ".toList = ' ' :: "bytes but max size is ".toList := by decide
  have q3 : ": Unknown variant ".toList = ':' :: " Unknown variant ".toList := by decide
  have q4 : " ".toList = [' '] := by decide
  have q5 : "wanted:".toList = 'w' :: "anted:".toList := by decide
  have q6 : "Duration nanos must be at most 1,000,000,000".toList = 'D' :: "uration nanos must be at most 1,000,000,000".toList := by decide
  obtain ⟨o, r⟩ := e
  obtain ⟨o', r'⟩ := e'
  cases r <;> cases r' <;> simp only [binErrText] at h
  case length.length l s l' s' =>
    rw [p1, q1, q2] at h
    simp only [List.append_assoc] at h
    have h := List.append_cancel_left (List.append_cancel_left h)
    obtain ⟨h1, _, h2⟩ := head_digits dig_space dig_space (fun _ => showNat_dig) (fun _ => showNat_dig) h
    have h2 := List.append_cancel_left h2
    obtain ⟨h3, _, h4⟩ := head_digits dig_space dig_space (fun _ => showNat_dig) (fun _ => showNat_dig) h2
    rw [Derive.showNat_inj h1, Derive.showNat_inj h3, Derive.showNat_inj (List.append_cancel_left h4)]
  case range.range =>
    rw [p1, q4] at h
    simp only [List.append_assoc] at h
    have h := List.append_cancel_left (List.append_cancel_left h)
    obtain ⟨h1, _, h2⟩ := head_digits dig_space dig_space (fun _ => showNat_dig) (fun _ => showNat_dig) h
    rw [Derive.showNat_inj h1]
  case unknownDiscriminant.unknownDiscriminant v v' =>
    rw [p2, q3] at h
    simp only [List.append_assoc] at h
    have h := List.append_cancel_left (List.append_cancel_left h)
    obtain ⟨h1, _, h2⟩ := head_digits dig_colon dig_colon (fun _ => showNat_dig) (fun _ => showNat_dig) h
    rw [Derive.showNat_inj h1, showInt_injE (List.append_cancel_left h2)]
  case length.range l s =>
    rw [p1, q1, q4, q5, q6] at h
    simp only [List.append_assoc] at h
    have h := List.append_cancel_left (List.append_cancel_left h)
    obtain ⟨_, _, h2⟩ := head_digits dig_space dig_space (fun _ => showNat_dig) (fun _ => showNat_dig) h
    exact absurd (List.cons.inj h2).1 (by decide)
  case range.length l s =>
    rw [p1, q1, q4, q5, q6] at h
    simp only [List.append_assoc] at h
    have h := List.append_cancel_left (List.append_cancel_left h)
    obtain ⟨_, _, h2⟩ := head_digits dig_space dig_space (fun _ => showNat_dig) (fun _ => showNat_dig) h
    exact absurd (List.cons.inj h2).1 (by decide)
  all_goals
    rw [p1, p2] at h
    simp only [List.append_assoc] at h
    have h := List.append_cancel_left h
    exact absurd (List.cons.inj h).1 (by decide)

/-! ## The texts a user sees -/

theorem json_shows {t : Ty} {input : List Char} {why : Reason} (h : RejectsWith (fun n => deserializeJson env fl n t input) why) :
    ShowsError (jsonErrText D fl) (fun n => deserializeJson env fl n t input)
      ("Json Deserialize error: ".toList ++ reasonText D fl why) input false := by
  obtain ⟨n0, h⟩ := h
  refine ⟨n0, fun n hn => ?_⟩
  obtain ⟨l, c, s, e⟩ := h n hn
  obtain ⟨rd, rest, h1, h2, h3⟩ := C33_json_error_position e
  exact ⟨_, s, rd, rest, e, h1, text_shape _ _ _ _ h2 h3⟩

theorem ron_shows {t : Ty} {input : List Char} {why : Reason} (h : RejectsWith (fun n => deserializeRon env fl n t input) why) :
    ShowsError (ronErrText D fl) (fun n => deserializeRon env fl n t input)
      ("Ron Deserialize error: ".toList ++ reasonText D fl why) input true := by
  obtain ⟨n0, h⟩ := h
  refine ⟨n0, fun n hn => ?_⟩
  obtain ⟨l, c, s, e⟩ := h n hn
  obtain ⟨rd, rest, h1, h2⟩ := C44_ron_error_line e
  exact ⟨_, s, rd, rest, e, h1, text_shape _ _ _ _ h2 (C44_ron_column_zero e)⟩

theorem ShowsError.cast {text : PErr → List Char} {f : Nat → Out PErr PSt Val} {head head' input : List Char} {ron : Bool}
    (h : ShowsError text f head input ron) (e : head = head') : ShowsError text f head' input ron := e ▸ h

theorem lit_append {a b c : String} (h : a ++ b = c) (k : List Char) : a.toList ++ (b.toList ++ k) = c.toList ++ k := by
  rw [← h, String.toList_append, List.append_assoc]

/-- **C83**: the object lacks the required field `f`: the error reads
`Json Deserialize error: Key not found <f>, line:… col:…`. -/
theorem C83_json_missing_key_text (hw : ProgWf env) (hp : Productive env) {i : Nat} {fs cd nul}
    (hd : env.defs[i]? = some (.struct fs cd nul)) (hdn : DistinctNames fs) {ms : List (JTree × JTree)} {tr : Bool}
    {txt} (hx : JText fl (.obj ms tr) txt) (hr : MembersReadable env fl fs ms) {j : Nat} {f : Field}
    (hj : fs[j]? = some f) (hno : NoMember ms f.jsonName) (hreq : ¬ f.mayBeAbsent cd)
    (hb : ∀ k g, k < j → fs[k]? = some g → NoMember ms g.jsonName → g.mayBeAbsent cd) :
    ShowsError (jsonErrText D fl) (fun n => deserializeJson env fl n (.named i) txt)
      ("Json Deserialize error: Key not found ".toList ++ f.name) txt false :=
  (json_shows (C27_json_missing_key hw hp hd hdn hx hr hj hno hreq hb)).cast (lit_append (by decide) _)

/-- **C83**: a string that names no unit variant: `Json Deserialize error: Enum not defined <name>, …`. -/
theorem C83_json_unknown_variant_text {i : Nat} {vars} (hd : env.defs[i]? = some (.enum vars))
    (hu : ∃ v ∈ vars, v.shape = .unit) {name : List Char} (hno : ∀ v ∈ vars, v.shape = .unit → v.jsonName ≠ name)
    {txt} (hx : JText fl (.str name) txt) :
    ShowsError (jsonErrText D fl) (fun n => deserializeJson env fl n (.named i) txt)
      ("Json Deserialize error: Enum not defined ".toList ++ name) txt false :=
  (json_shows (C34_json_unknown_unit hd hu hno hx)).cast (lit_append (by decide) _)

/-- **C83**: an unknown field in RON: `Ron Deserialize error: Unexpected key <k>, line:… col:1`. -/
theorem C83_ron_unknown_field_text (hkeys : LawfulKeys env) {i : Nat} {fs cd nul} (hd : env.defs[i]? = some (.struct fs cd nul)) (hne : fs ≠ [])
    (hdn : DistinctNames fs) {k : List Char} (hk : NotBool k) (hun : ∀ f ∈ fs, f.skip = false → f.jsonName ≠ k)
    (ps : List RMember) (hkn : KnownMembers fs ps)
    (hr : ∀ p ∈ ps, ∀ f ∈ fs, f.skip = false → f.jsonName = p.1 → RonMeans env fl f.ty p.2.1 p.2.2) {txt tail}
    (hx : RDoc fl (.punct .parenOpen :: (memberLexemes ps ++ [.word k])) txt tail) :
    ShowsError (ronErrText D fl) (fun n => deserializeRon env fl n (.named i) txt)
      ("Ron Deserialize error: Unexpected key ".toList ++ k) txt true :=
  (ron_shows (C42_ron_unknown_field hkeys hd hne hdn hk hun ps hkn hr hx)).cast (lit_append (by decide) _)

/-- **C83**: reading a fixed-size value at offset `o` of an input that ends before its last byte:
`Bin deserialize error at:<o> wanted:<size> bytes but max size is <length>`. -/
theorem C83_bin_length_text {chk : Bool} (t : Ty) (m : Nat) (hm : primSize t = some m) (d : List Byte) (o n : Nat)
    (hd : d.length ≤ isizeMax) (ho : o ≤ d.length) (hs : d.length < o + m) :
    ∃ e, deBin env chk d (n + 1) t o = .err e o ∧
      binErrText e = "Bin deserialize error at:".toList ++ (toString o).toList ++ " wanted:".toList ++
        (toString m).toList ++ " bytes but max size is ".toList ++ (toString d.length).toList := by
  refine ⟨_, (C12_bin_length_error t m hm d o n hd ho).1 hs, ?_⟩
  rw [← showNat_toString, ← showNat_toString, ← showNat_toString]
  rfl

/-- **C83**: a number that is no variant's: `Bin deserialize error at 0: Unknown variant <number>`. -/
theorem C83_bin_unknown_variant_text {chk : Bool} (i : Nat) (vars : List Variant)
    (hd : env.defs[i]? = some (.enum vars)) (pre post : List Byte) (a b : Byte)
    (hlen : (pre ++ a :: b :: post).length ≤ isizeMax) (hbad : vars.length ≤ a.toNat + 256 * b.toNat) :
    ∃ e, Returns (fun n => deBin env chk (pre ++ a :: b :: post) n (.named i) pre.length) (.err e (pre.length + 2)) ∧
      binErrText e = "Bin deserialize error at 0: Unknown variant ".toList ++ (toString (a.toNat + 256 * b.toNat)).toList := by
  refine ⟨_, C07_bin_unknown_discriminant i vars hd pre post a b hlen hbad, ?_⟩
  have e1 : "Bin deserialize error at ".toList ++ showNat 0 ++ ": Unknown variant ".toList =
      "Bin deserialize error at 0: Unknown variant ".toList := by decide
  show "Bin deserialize error at ".toList ++ showNat 0 ++ ": Unknown variant ".toList ++ showInt ((a.toNat + 256 * b.toNat : Nat) : Int) = _
  rw [e1, showInt_ofNat, showNat_toString]

/-! ## Examples -/

/-- `{:?}` of characters and strings, simplified. -/
def exDebug : DebugOps := ⟨fun c => ['\'', c, '\''], fun s => '"' :: (s ++ ['"'])⟩

/-- C83: `[1,⏎ 2 x]` as `Vec<u8>`. -/
example : ∃ e s, deserializeJson exJEnv toyFloat 9 (.vec (.int .u8)) (chars "[1,\n 2 x]") = .err e s ∧
    jsonErrText exDebug toyFloat e =
      "Json Deserialize error: Unexpected token BareIdent expected Got ##x## needed true, false, null , line:2 col:6".toList := by
  obtain ⟨e, s, h, g⟩ := Out.errSat_spec (o := deserializeJson exJEnv toyFloat 9 (.vec (.int .u8)) (chars "[1,\n 2 x]"))
    (f := fun e _ => jsonErrText exDebug toyFloat e ==
      "Json Deserialize error: Unexpected token BareIdent expected Got ##x## needed true, false, null , line:2 col:6".toList)
    (by decide +kernel)
  exact ⟨e, s, h, by simpa only [beq_iff_eq] using g⟩

/-- C83: `300` as `u8`, in RON. -/
example : ∃ e s, deserializeRon exJEnv toyFloat 9 (.int .u8) (chars "\n300 ") = .err e s ∧
    ronErrText exDebug toyFloat e = "Ron Deserialize error: Value out of range 300>255 , line:2 col:1".toList := by
  obtain ⟨e, s, h, g⟩ := Out.errSat_spec (o := deserializeRon exJEnv toyFloat 9 (.int .u8) (chars "\n300 "))
    (f := fun e _ => ronErrText exDebug toyFloat e == "Ron Deserialize error: Value out of range 300>255 , line:2 col:1".toList)
    (by decide +kernel)
  exact ⟨e, s, h, by simpa only [beq_iff_eq] using g⟩

/-- C83: `k=1⏎l=$`. -/
example : ∃ e s, parseToml toyToml 9 (chars "k=1\nl=,") = .err e s ∧
    tomlErrText exDebug toyFloat e = "Toml error: Unexpected token Comma , line:2 col:1".toList := by
  obtain ⟨e, s, h, g⟩ := Out.errSat_spec (o := parseToml toyToml 9 (chars "k=1\nl=,"))
    (f := fun e _ => tomlErrText exDebug toyFloat e == "Toml error: Unexpected token Comma , line:2 col:1".toList)
    (by decide +kernel)
  exact ⟨e, s, h, by simpa only [beq_iff_eq] using g⟩

/-- C83: `{ "n": "x" }` lacks `ratio`. -/
example : ShowsError (jsonErrText exDebug toyFloat) (fun n => deserializeJson exJEnv toyFloat n (.named 3) (chars " { \"n\" : \"x\" }"))
    ("Json Deserialize error: Key not found ".toList ++ chars "ratio") (chars " { \"n\" : \"x\" }") false :=
  (json_shows exMissing).cast (lit_append (by decide) _)

/-- C83: three bytes are not a `u32`. -/
example : ∃ e, deBin exEnv true [1, 2, 3] 1 (.int .u32) 0 = .err e 0 ∧
    binErrText e = "Bin deserialize error at:0 wanted:4 bytes but max size is 3".toList := by
  obtain ⟨e, h1, h2⟩ := C83_bin_length_text (env := exEnv) (chk := true) (.int .u32) 4 rfl [1, 2, 3] 0 0 (by decide) (by decide) (by decide)
  exact ⟨e, h1, by rw [h2]; decide +kernel⟩

end NS
