import Verif.Lemmas.Truncate
import Verif.Lemmas.JsonHalts
import Verif.Spec.Unknown
/-! Reading a JSON text that breaks off: what the lexer sees. -/
namespace NS
variable {fl : FloatOps} {env : Env}

/-- A token that is a value by itself and not a string. -/
def Tok.leaf : Tok → Bool
  | .u64 _ | .i64 _ | .f64 _ | .bool _ | .null => true
  | _ => false

/-- The text is over: no more tokens, or one last number or word. -/
def Over (fl : FloatOps) (s : PSt) : Prop :=
  s.tok = .eof ∨ s.tok.leaf = true ∧ ∀ s0 s' : PSt, s0.cur.txt = s.cur.txt → jNext fl s0 = .ok () s' → s'.tok = .eof

/-- Where the text `txt` does not break off, its lexemes are `ls`. -/
def Ahead (fl : FloatOps) : List Lexeme → List Char → Prop
  | [], _ => True
  | l :: ls, txt => ∀ s s' : PSt, s.cur.txt = txt → jNext fl s = .ok () s' →
      Over fl s' ∨ s'.tok = jtok l ∧ (∀ k, l = .str k → s'.strbuf = k) ∧ Ahead fl ls s'.cur.txt

/-- The same, the current token included. -/
def JFeeds (fl : FloatOps) : List Lexeme → PSt → Prop
  | [], _ => True
  | l :: ls, s => Over fl s ∨ s.tok = jtok l ∧ (∀ k, l = .str k → s.strbuf = k) ∧ Ahead fl ls s.cur.txt

theorem Over.feeds {s : PSt} (h : Over fl s) (ls : List Lexeme) : JFeeds fl ls s := by
  cases ls with
  | nil => trivial
  | cons l ls => exact .inl h

theorem Over.eof {s : PSt} (h : s.tok = .eof) : Over fl s := .inl h

theorem Ahead.next {ls : List Lexeme} {s s' : PSt} (h : Ahead fl ls s.cur.txt) (e : jNext fl s = .ok () s') : JFeeds fl ls s' := by
  cases ls with
  | nil => trivial
  | cons l ls => exact h s s' rfl e

theorem jNext_nil {s s' : PSt} (h : s.cur.txt = []) (e : jNext fl s = .ok () s') : s'.tok = .eof := by
  have := jNext_eof (fl := fl) (s := s) (by simp [Cur.ch, h])
  rw [this] at e
  injection e with _ e
  subst e
  rfl

theorem JScan.extend1 {l : Lexeme} {p r : List Char} (h : JScan fl [l] p r) (q : List Char) (hr : r ≠ [] ∨ ∀ s c, JLongest l s c) :
    JScan fl [l] (p ++ q) (r ++ q) := by
  rcases hr with hr | hr
  · generalize e : [l] = m at h
    cases h with
    | nil => cases e
    | @cons l' ls w s r' rest h1 h2 h3 h4 =>
      injection e with e1 e2
      subst e1 e2
      have := h4.nil_inv
      subst this
      rw [List.append_assoc]
      exact .cons h1 h2 (by rw [head_append_of_ne hr]; exact h3) .nil
  · exact h.extend q (by intro m hm; simp at hm; exact hm ▸ hr)

theorem longest_or (l : Lexeme) : (∀ s c, JLongest l s c) ∨ (∃ n, l = .num n) ∨ ∃ w, l = .word w := by
  cases l with
  | num n => exact .inr (.inl ⟨n, rfl⟩)
  | word w => exact .inr (.inr ⟨w, rfl⟩)
  | _ => exact .inl fun _ _ => trivial

theorem leaf_spell {l : Lexeme} {s : List Char} (h : JSpell fl l s) (hl : (∃ n, l = .num n) ∨ ∃ w, l = .word w) :
    (jtok l).leaf = true := by
  cases h with
  | num h =>
    rename_i n
    cases n <;> rfl
  | _ => first | rfl | (rcases hl with ⟨_, h⟩ | ⟨_, h⟩ <;> cases h)

theorem JScan.spelled {l : Lexeme} {p r : List Char} (h : JScan fl [l] p r) : ∃ s, JSpell fl l s := by
  generalize e : [l] = m at h
  cases h with
  | nil => cases e
  | cons h1 h2 h3 h4 => injection e with e1 e2; subst e1; exact ⟨_, h2⟩

/-- Of a text without its end, the lexer finds the same lexemes. -/
theorem JScan.ahead (hfl : FloatLaws fl) {ls : List Lexeme} {rest q p : List Char} (h : JScan fl ls (p ++ q) rest) :
    Ahead fl ls p := by
  induction ls generalizing p with
  | nil => trivial
  | cons l ls ih =>
    intro s s' hs hn
    obtain ⟨l', h1, h2, h3, _⟩ := jNext_sound' hfl hn
    rcases h1 with ⟨rfl, _, _⟩ | h1
    · exact .inl (.inl h2)
    rw [hs] at h1
    by_cases hr : s'.cur.txt ≠ [] ∨ ∀ s c, JLongest l' s c
    · right
      rcases h.det (h1.extend1 q hr) with ⟨m, em, hm⟩ | ⟨m, em, hm⟩
      · rw [List.cons_append] at em
        injection em with e1 e2
        subst e1
        have : ls = [] := (List.append_eq_nil_iff.1 e2.symm).1
        subst this
        exact ⟨h2, fun k hk => by subst hk; exact h3, trivial⟩
      · injection em with e1 e2
        subst e1 e2
        exact ⟨h2, fun k hk => by subst hk; exact h3, ih hm⟩
    · have hnil : s'.cur.txt = [] := Decidable.byContradiction fun h => hr (.inl h)
      have hlf := (longest_or l').resolve_left fun h => hr (.inr h)
      obtain ⟨sp, hsp⟩ := h1.spelled
      refine .inl (.inr ⟨by rw [h2]; exact leaf_spell hsp hlf, fun s0 s1 e0 e1 => jNext_nil (by rw [e0, hnil]) e1⟩)

/-- The string buffer keeps the last string. -/
theorem jNext_strbuf (hfl : FloatLaws fl) {s s' : PSt} (h : jNext fl s = .ok () s') (hs : s'.tok ≠ .str) : s'.strbuf = s.strbuf := by
  obtain ⟨l, _, h2, h3, _⟩ := jNext_sound' hfl h
  cases l with
  | str k => exact absurd h2 hs
  | _ => exact h3

end NS
