import Verif.Lemmas.TomlErr
import Verif.Props.ExamplesText
/-! Example TOML documents, used beside the theorems. -/
namespace NS

/-- Example operations on floats. -/
def toyToml : TomlOps := { toyFloat with disp64 := fun _ => [] }

theorem TDoc.at {o : TomlOps} {t : TTok} {ts : List TTok} {txt tail : List Char} (w s r : List Char) (h : txt = w ++ s ++ r)
    (hw : TLayout w) (hs : TSpell o s r t) (hd : TDoc o ts r tail) : TDoc o (t :: ts) txt tail := by
  subst h; exact .cons hw hs hd

theorem lay1 {c : Char} (h : Blank c) : TLayout [c] := .space h .nil

/-- A bare key of letters, before a space. -/
theorem spellKey {o : TomlOps} {c : Char} {w r : List Char} (h1 : Bare c) (h2 : ¬ Digit c) (h3 : c ≠ '-')
    (h4 : ∀ x ∈ w, Bare x ∨ x = '.') (h5 : c :: w ∉ tomlWords.map Prod.fst) (h6 : Terminated r) :
    TSpell o (c :: w) r (.ident (c :: w)) := .ident h1 h2 h3 h4 h5 h6

instance (c : Char) : Decidable (Bare c) := by unfold Bare; infer_instance
instance (c : Char) : Decidable (Digit c) := by unfold Digit; infer_instance
instance (c : Char) : Decidable (Blank c) := by unfold Blank; infer_instance

/-- Decides `Terminated`. -/
def terminated (r : List Char) : Bool :=
  match r.head? with
  | none => true
  | some c => c == ' ' || c == '\t' || c == '\r' || c == '\n' || c == '=' || c == ']'

theorem terminated_ok {r : List Char} (h : terminated r = true) : Terminated r := by
  intro c hc
  simp only [terminated, hc] at h
  simpa [or_assoc] using h

theorem notBefore_ok {p : Char → Prop} [DecidablePred p] {r : List Char}
    (h : (match r.head? with | none => true | some c => decide (¬ p c)) = true) : NotBefore p r := by
  intro c hc
  rw [hc] at h
  simpa using h

/-- `[s]⏎k = 1 # one⏎k=[2,"x"]⏎[[t]]⏎a=-3⏎[[t]]` -/
def exToml : List Char := chars "[s]\nk = 1 # one\nk=[2,\"x\"]\n[[t]]\na=-3\n[[t]]"

def exTomlDoc : List Stmt :=
  [.sect (chars "s"), .assign (chars "k") (.num (toyToml.ofU64 1)),
   .assign (chars "k") (.simpleArray [.num (toyToml.ofU64 2), .str (chars "x")]),
   .table (chars "t"), .assign (chars "a") (.num (toyToml.ofI64 (-3))), .table (chars "t")]

theorem ident1 {o : TomlOps} {c : Char} {r : List Char} (h1 : Bare c) (h2 : ¬ Digit c) (h3 : c ≠ '-') (h6 : terminated r = true) :
    TSpell o [c] r (.ident [c]) :=
  .ident h1 h2 h3 (by simp) (by simp [tomlWords]) (terminated_ok h6)

theorem digit1 {o : TomlOps} {c : Char} {r : List Char} (h1 : Digit c)
    (h2 : (match r.head? with | none => true | some c => decide (¬ (Bare c ∨ c = '.'))) = true) :
    TSpell o [c] r (.u64 (c.toNat - 48)) := by
  have hb : c.toNat - 48 < 10 := by
    have := h1.2
    have : c.toNat ≤ 57 := this
    omega
  have hd : decimal [c] = c.toNat - 48 := by simp [decimal]
  have hu : c ≠ '_' := by rintro rfl; revert h1; decide
  rw [← hd]
  refine .pos (sg := []) (s := [c]) (ds := [c]) (.inl rfl) ⟨⟨c, [], rfl, h1⟩, by simpa using Or.inl h1, by simp [hu]⟩ ?_ (notBefore_ok h2)
  rw [hd]; omega

theorem exToml_text : TText toyToml exTomlDoc exToml := by
  refine ⟨[.blockOpen, .ident (chars "s"), .blockClose,
    .ident (chars "k"), .equals, .u64 1,
    .ident (chars "k"), .equals, .blockOpen, .u64 2, .comma, .str (chars "x"), .blockClose,
    .blockOpen, .blockOpen, .ident (chars "t"), .blockClose, .blockClose,
    .ident (chars "a"), .equals, .i64 (-3),
    .blockOpen, .blockOpen, .ident (chars "t"), .blockClose, .blockClose], ?_, [], .inl .nil, ?_⟩
  · refine .cons (ts := [_, _, _]) .sect (.cons (ts := [_, _, _]) (.assign .ident .nat) (.cons (ts := [_, _, _, _, _, _, _]) (.assign .ident ?_)
      (.cons (ts := [_, _, _, _, _]) (.table .ident) (.cons (ts := [_, _, _]) (.assign .ident .int)
        (.cons (ts := [_, _, _, _, _]) (.table .ident) .nil)))))
    exact .array (ts := [_, _, _]) (.elem (ts := [_]) .nat (.comma (.elem (ts := [_]) .str .nil)))
  · refine .at [] (chars "[") (chars "s]\nk = 1 # one\nk=[2,\"x\"]\n[[t]]\na=-3\n[[t]]") (by decide) .nil .blockOpen ?_
    refine .at [] (chars "s") (chars "]\nk = 1 # one\nk=[2,\"x\"]\n[[t]]\na=-3\n[[t]]") (by decide) .nil (ident1 (by decide) (by decide) (by decide) (by decide)) ?_
    refine .at [] (chars "]") (chars "\nk = 1 # one\nk=[2,\"x\"]\n[[t]]\na=-3\n[[t]]") (by decide) .nil .blockClose ?_
    refine .at (chars "\n") (chars "k") (chars " = 1 # one\nk=[2,\"x\"]\n[[t]]\na=-3\n[[t]]") (by decide) (lay1 (by decide)) (ident1 (by decide) (by decide) (by decide) (by decide)) ?_
    refine .at (chars " ") (chars "=") (chars " 1 # one\nk=[2,\"x\"]\n[[t]]\na=-3\n[[t]]") (by decide) (lay1 (by decide)) .equals ?_
    refine .at (chars " ") (chars "1") (chars " # one\nk=[2,\"x\"]\n[[t]]\na=-3\n[[t]]") (by decide) (lay1 (by decide)) (digit1 (c := '1') (by decide) (by decide)) ?_
    refine .at (chars " # one\n") (chars "k") (chars "=[2,\"x\"]\n[[t]]\na=-3\n[[t]]") (by decide)
      (.space (by decide) (.comment (b := chars " one") (w := []) (by decide) (by decide) .nil)) (ident1 (by decide) (by decide) (by decide) (by decide)) ?_
    refine .at [] (chars "=") (chars "[2,\"x\"]\n[[t]]\na=-3\n[[t]]") (by decide) .nil .equals ?_
    refine .at [] (chars "[") (chars "2,\"x\"]\n[[t]]\na=-3\n[[t]]") (by decide) .nil .blockOpen ?_
    refine .at [] (chars "2") (chars ",\"x\"]\n[[t]]\na=-3\n[[t]]") (by decide) .nil (digit1 (c := '2') (by decide) (by decide)) ?_
    refine .at [] (chars ",") (chars "\"x\"]\n[[t]]\na=-3\n[[t]]") (by decide) .nil .comma ?_
    refine .at [] (chars "\"x\"") (chars "]\n[[t]]\na=-3\n[[t]]") (by decide) .nil
      (.str (b := chars "x") (by decide) (.plain (by decide) (by decide) (by decide) .nil)) ?_
    refine .at [] (chars "]") (chars "\n[[t]]\na=-3\n[[t]]") (by decide) .nil .blockClose ?_
    refine .at (chars "\n") (chars "[") (chars "[t]]\na=-3\n[[t]]") (by decide) (lay1 (by decide)) .blockOpen ?_
    refine .at [] (chars "[") (chars "t]]\na=-3\n[[t]]") (by decide) .nil .blockOpen ?_
    refine .at [] (chars "t") (chars "]]\na=-3\n[[t]]") (by decide) .nil (ident1 (by decide) (by decide) (by decide) (by decide)) ?_
    refine .at [] (chars "]") (chars "]\na=-3\n[[t]]") (by decide) .nil .blockClose ?_
    refine .at [] (chars "]") (chars "\na=-3\n[[t]]") (by decide) .nil .blockClose ?_
    refine .at (chars "\n") (chars "a") (chars "=-3\n[[t]]") (by decide) (lay1 (by decide)) (ident1 (by decide) (by decide) (by decide) (by decide)) ?_
    refine .at [] (chars "=") (chars "-3\n[[t]]") (by decide) .nil .equals ?_
    refine .at [] (chars "-3") (chars "\n[[t]]") (by decide) .nil
      (.neg (s := ['3']) (ds := ['3']) ⟨⟨'3', [], rfl, by decide⟩, by decide, by decide⟩ (by decide) (notBefore_ok (by decide))) ?_
    refine .at (chars "\n") (chars "[") (chars "[t]]") (by decide) (lay1 (by decide)) .blockOpen ?_
    refine .at [] (chars "[") (chars "t]]") (by decide) .nil .blockOpen ?_
    refine .at [] (chars "t") (chars "]]") (by decide) .nil (ident1 (by decide) (by decide) (by decide) (by decide)) ?_
    refine .at [] (chars "]") (chars "]") (by decide) .nil .blockClose ?_
    exact .at [] (chars "]") [] (by decide) .nil .blockClose .nil

/-- `a=1⏎[[a]]` -/
theorem exClash_text : TText toyToml [.assign (chars "a") (.num (toyToml.ofU64 1)), .table (chars "a")] (chars "a=1\n[[a]]") := by
  refine ⟨[.ident (chars "a"), .equals, .u64 1, .blockOpen, .blockOpen, .ident (chars "a"), .blockClose, .blockClose], ?_, [], .inl .nil, ?_⟩
  · exact .cons (ts := [_, _, _]) (.assign .ident .nat) (.cons (ts := [_, _, _, _, _]) (.table .ident) .nil)
  · refine .at [] (chars "a") (chars "=1\n[[a]]") (by decide) .nil (ident1 (by decide) (by decide) (by decide) (by decide)) ?_
    refine .at [] (chars "=") (chars "1\n[[a]]") (by decide) .nil .equals ?_
    refine .at [] (chars "1") (chars "\n[[a]]") (by decide) .nil (digit1 (c := '1') (by decide) (by decide)) ?_
    refine .at (chars "\n") (chars "[") (chars "[a]]") (by decide) (lay1 (by decide)) .blockOpen ?_
    refine .at [] (chars "[") (chars "a]]") (by decide) .nil .blockOpen ?_
    refine .at [] (chars "a") (chars "]]") (by decide) .nil (ident1 (by decide) (by decide) (by decide) (by decide)) ?_
    refine .at [] (chars "]") (chars "]") (by decide) .nil .blockClose ?_
    exact .at [] (chars "]") [] (by decide) .nil .blockClose .nil

end NS
