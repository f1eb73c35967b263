import Verif.Lemmas.Sim
import Verif.Lemmas.JsonLex
import Verif.Model.Ron
/-!
# The lexers depend on the position only through the remaining text

A relation between cursors that implies equal remaining texts and is kept by `next` is kept by every
part of the lexers.
-/
namespace NS

/-- A relation between cursors. -/
structure CurRel (k : Nat → Nat) where
  Q : Cur → Cur → Prop
  txt : ∀ {c c'}, Q c c' → c'.txt = c.txt
  next : ∀ {c c'}, Q c c' → Q (c.next k) (c'.next k)

namespace CurRel
variable {k : Nat → Nat} (C : CurRel k)

/-- The simulation that it induces. -/
def sim (P : Prop) : Sim where
  R s s' := C.Q s.cur s'.cur ∧ s'.tok = s.tok ∧ s'.strbuf = s.strbuf ∧ s'.identbuf = s.identbuf
  E e e' := e'.msg = e.msg ∧ ∃ c c', C.Q c c' ∧ e.line = c.line ∧ e.col = c.col ∧ e'.line = c'.line ∧ e'.col = c'.col
  P := P
  tok h := h.2.1
  str h := h.2.2.1
  ident h := h.2.2.2
  setStr _ h := ⟨h.1, h.2.1, rfl, h.2.2.2⟩
  err _ h := ⟨rfl, _, _, h.1, rfl, rfl, rfl, rfl⟩

variable {C}

theorem _root_.NS.Cur.next_eta {k y t l c} : (Cur.mk (y :: t) l c).next k =
    ⟨t, ((Cur.mk (y :: t) l c).next k).line, ((Cur.mk (y :: t) l c).next k).col⟩ := by
  have := Cur.next_txt k ⟨y :: t, l, c⟩
  simp only [List.tail_cons] at this
  generalize (Cur.mk (y :: t) l c).next k = d at this
  obtain ⟨x, y, z⟩ := d
  simp only at this
  rw [this]

theorem ch {c c' : Cur} (h : C.Q c c') : c'.ch = c.ch := by simp only [Cur.ch, C.txt h]

theorem span {p : Char → Bool} {c c' : Cur} (h : C.Q c c') :
    (c'.span k p).1 = (c.span k p).1 ∧ C.Q (c.span k p).2 (c'.span k p).2 := by
  refine ⟨by rw [Cur.span_fst, Cur.span_fst, C.txt h], ?_⟩
  have key : ∀ (t : List Char) (c c' : Cur), c.txt = t → C.Q c c' → C.Q (c.span k p).2 (c'.span k p).2 := by
    intro t
    induction t with
    | nil =>
      intro c c' ht h
      have ht' : c'.txt = [] := (C.txt h).trans ht
      rw [Cur.span_stop (by intro x t e; rw [ht] at e; cases e), Cur.span_stop (by intro x t e; rw [ht'] at e; cases e)]
      exact h
    | cons x t ih =>
      intro c c' ht h
      have ht' : c'.txt = x :: t := (C.txt h).trans ht
      cases hp : p x with
      | false =>
        rw [Cur.span_stop (by intro y r e; rw [ht] at e; injection e with e _; rw [← e, hp]),
          Cur.span_stop (by intro y r e; rw [ht'] at e; injection e with e _; rw [← e, hp])]
        exact h
      | true =>
        rw [Cur.span_step ht hp, Cur.span_step ht' hp]
        exact ih _ _ (by simp [ht]) (C.next h)
  exact key _ _ _ rfl h

/-- A pair of equal first and related second components. -/
def Both {α : Type} (C : CurRel k) (x y : α × Cur) : Prop := y.1 = x.1 ∧ C.Q x.2 y.2

theorem xdigits {c c' : Cur} (h : C.Q c c') (n acc : Nat) : Both C (xdigits k n acc c) (NS.xdigits k n acc c') := by
  induction n generalizing acc c c' with
  | zero => exact ⟨rfl, h⟩
  | succ n ih =>
    simp only [NS.xdigits, ch h]
    cases hexVal c.ch with
    | none => exact ⟨rfl, h⟩
    | some d => exact ih (C.next h) _

theorem hexUnescape {c c' : Cur} (h : C.Q c c') : Both C (hexUnescape k c) (NS.hexUnescape k c') := by
  unfold NS.hexUnescape
  have h1 := xdigits (C.next h) 4 0
  generalize NS.xdigits k 4 0 (c.next k) = x at h1
  generalize NS.xdigits k 4 0 (c'.next k) = y at h1
  obtain ⟨a, c1⟩ := x
  obtain ⟨b, c1'⟩ := y
  obtain ⟨e, h1⟩ := h1
  simp only at e h1
  subst e
  cases b with
  | none => exact ⟨rfl, h1⟩
  | some a =>
    simp only
    cases charOfU32 a with
    | some x => exact ⟨rfl, h1⟩
    | none =>
      simp only [ch h1, ch (C.next h1)]
      split
      · split
        · have h2 := xdigits (C.next (C.next h1)) 4 0
          generalize NS.xdigits k 4 0 ((c1.next k).next k) = x at h2
          generalize NS.xdigits k 4 0 ((c1'.next k).next k) = y at h2
          obtain ⟨b, c2⟩ := x
          obtain ⟨b', c2'⟩ := y
          obtain ⟨e, h2⟩ := h2
          simp only at e h2
          subst e
          cases b' with
          | none => exact ⟨rfl, h2⟩
          | some b =>
            simp only
            split
            · exact ⟨rfl, h2⟩
            · exact ⟨rfl, h2⟩
        · exact ⟨rfl, C.next h1⟩
      · exact ⟨rfl, h1⟩

/-- Related results of reading a string. -/
def StrBoth (C : CurRel k) : StrRes → StrRes → Prop
  | .done c b, .done c' b' => b' = b ∧ C.Q c c'
  | .bad c b, .bad c' b' => b' = b ∧ C.Q c c'
  | .oof, .oof => True
  | _, _ => False

theorem lexStr {c c' : Cur} (h : C.Q c c') (n : Nat) (buf : List Char) :
    StrBoth C (lexStr k n c buf) (NS.lexStr k n c' buf) := by
  induction n generalizing c c' buf with
  | zero => trivial
  | succ n ih =>
    simp only [NS.lexStr, ch h, ch (C.next h)]
    split
    · exact ⟨rfl, C.next h⟩
    split
    · split
      · exact ⟨rfl, C.next h⟩
      split
      · have h1 := hexUnescape (C.next h)
        generalize NS.hexUnescape k (c.next k) = x at h1
        generalize NS.hexUnescape k (c'.next k) = y at h1
        obtain ⟨a, c1⟩ := x
        obtain ⟨b, c1'⟩ := y
        obtain ⟨e, h1⟩ := h1
        simp only at e h1
        subst e
        cases b with
        | none => exact ⟨rfl, h1⟩
        | some a => exact ih h1 _
      · exact ih (C.next (C.next h)) _
    split
    · exact ⟨rfl, h⟩
    · exact ih (C.next h) _

theorem lexNum {c c' : Cur} (h : C.Q c c') (fl : FloatOps) : Both C (lexNum k fl c) (NS.lexNum k fl c') := by
  unfold NS.lexNum
  simp only [ch h]
  have ha : Both C (if c.ch = '-' ∨ c.ch = '+' then ([c.ch], c.next k) else (([] : List Char), c))
      (if c.ch = '-' ∨ c.ch = '+' then ([c.ch], c'.next k) else ([], c')) := by
    split
    · exact ⟨rfl, C.next h⟩
    · exact ⟨rfl, h⟩
  generalize (if c.ch = '-' ∨ c.ch = '+' then ([c.ch], c.next k) else (([] : List Char), c)) = a at ha
  generalize (if c.ch = '-' ∨ c.ch = '+' then ([c.ch], c'.next k) else (([] : List Char), c')) = a' at ha
  obtain ⟨a, ca⟩ := a
  obtain ⟨a', ca'⟩ := a'
  obtain ⟨e, ha⟩ := ha
  simp only at e ha
  subst e
  obtain ⟨e, hb⟩ := span (p := isDig) ha
  simp only [e]
  generalize (ca.span k isDig) = b at hb
  generalize (ca'.span k isDig) = b' at hb
  obtain ⟨b, cb⟩ := b
  obtain ⟨b', cb'⟩ := b'
  simp only at hb ⊢
  have hd : Both C (if cb.ch = '.' then ('.' :: ((cb.next k).span k isDig).1, ((cb.next k).span k isDig).2) else ([], cb))
      (if cb'.ch = '.' then ('.' :: ((cb'.next k).span k isDig).1, ((cb'.next k).span k isDig).2) else ([], cb')) := by
    rw [ch hb]
    obtain ⟨e, hs⟩ := span (p := isDig) (C.next hb)
    split
    · exact ⟨by simp only [e], hs⟩
    · exact ⟨rfl, hb⟩
  generalize (if cb.ch = '.' then ('.' :: ((cb.next k).span k isDig).1, ((cb.next k).span k isDig).2) else ([], cb)) = d at hd
  generalize (if cb'.ch = '.' then ('.' :: ((cb'.next k).span k isDig).1, ((cb'.next k).span k isDig).2) else ([], cb')) = d' at hd
  obtain ⟨d, cd⟩ := d
  obtain ⟨d', cd'⟩ := d'
  obtain ⟨e, hd⟩ := hd
  simp only at e hd
  subst e
  simp only
  have hm : Both C (if (cd.next k).ch = '-' then (['-'], (cd.next k).next k) else ([], cd.next k))
      (if (cd'.next k).ch = '-' then (['-'], (cd'.next k).next k) else ([], cd'.next k)) := by
    rw [ch (C.next hd)]
    split
    · exact ⟨rfl, C.next (C.next hd)⟩
    · exact ⟨rfl, C.next hd⟩
  generalize (if (cd.next k).ch = '-' then (['-'], (cd.next k).next k) else ([], cd.next k)) = m at hm
  generalize (if (cd'.next k).ch = '-' then (['-'], (cd'.next k).next k) else ([], cd'.next k)) = m' at hm
  obtain ⟨m, cm⟩ := m
  obtain ⟨m', cm'⟩ := m'
  obtain ⟨e, hm⟩ := hm
  simp only at e hm
  subst e
  simp only
  have he : Both C (if cd.ch = 'e' ∨ cd.ch = 'E' then (cd.ch :: (m' ++ (cm.span k isDig).1), (cm.span k isDig).2) else ([], cd))
      (if cd'.ch = 'e' ∨ cd'.ch = 'E' then (cd'.ch :: (m' ++ (cm'.span k isDig).1), (cm'.span k isDig).2) else ([], cd')) := by
    rw [ch hd]
    obtain ⟨e, hs⟩ := span (p := isDig) hm
    split
    · exact ⟨by simp only [e], hs⟩
    · exact ⟨rfl, hd⟩
  generalize (if cd.ch = 'e' ∨ cd.ch = 'E' then (cd.ch :: (m' ++ (cm.span k isDig).1), (cm.span k isDig).2) else ([], cd)) = x at he
  generalize (if cd'.ch = 'e' ∨ cd'.ch = 'E' then (cd'.ch :: (m' ++ (cm'.span k isDig).1), (cm'.span k isDig).2) else ([], cd')) = x' at he
  obtain ⟨x, cx⟩ := x
  obtain ⟨x', cx'⟩ := x'
  obtain ⟨e, he⟩ := he
  simp only at e he
  subst e
  simp only
  split
  · exact ⟨rfl, he⟩
  · split
    · exact ⟨rfl, he⟩
    · exact ⟨rfl, he⟩

end CurRel

/-! ## JSON -/

namespace CurRel
variable {C : CurRel jcol} {P : Prop}

theorem jBlock (t : List Char) : ∀ (x : Char) (l c l' c' : Nat), C.Q ⟨t, l, c⟩ ⟨t, l', c'⟩ →
    Both C (jBlock t x l c) (NS.jBlock t x l' c') := by
  induction t with
  | nil => intro x l c l' c' h; exact ⟨rfl, h⟩
  | cons y t ih =>
    intro x l c l' c' h
    simp only [NS.jBlock]
    have hn := C.next h
    have e : ∀ l c, (Cur.mk (y :: t) l c).next jcol =
        ⟨t, ((Cur.mk (y :: t) l c).next jcol).line, ((Cur.mk (y :: t) l c).next jcol).col⟩ :=
      fun l c => Cur.next_eta
    cases t with
    | nil => exact ⟨rfl, hn⟩
    | cons z t =>
      simp only
      split
      · exact ⟨rfl, hn⟩
      split
      · exact ⟨rfl, C.next hn⟩
      · refine ih z _ _ _ _ ?_
        rw [← e, ← e]
        exact hn

/-- Related results of skipping. -/
def SkipBoth (C : CurRel jcol) : SkipRes → SkipRes → Prop
  | .at c, .at c' => C.Q c c'
  | .bad c w, .bad c' w' => w' = w ∧ C.Q c c'
  | .oof, .oof => True
  | _, _ => False

theorem jSkip {c c' : Cur} (h : C.Q c c') (n : Nat) : SkipBoth C (jSkip n c) (NS.jSkip n c') := by
  induction n generalizing c c' with
  | zero => trivial
  | succ n ih =>
    simp only [NS.jSkip]
    have h1 := (span (p := isWs) h).2
    generalize (c.span jcol isWs).2 = d at h1
    generalize (c'.span jcol isWs).2 = d' at h1
    rw [ch h1]
    have h2 := C.next h1
    generalize d.next jcol = f at h2
    generalize d'.next jcol = f' at h2
    rw [ch h2]
    split
    · split
      · exact ih (span h2).2
      split
      · have ef : f = ⟨f.txt, f.line, f.col⟩ := rfl
        have ef' : f' = ⟨f.txt, f'.line, f'.col⟩ := by conv => lhs; rw [show f' = ⟨f'.txt, f'.line, f'.col⟩ from rfl]; rw [C.txt h2]
        have h3 := jBlock f.txt f.ch f.line f.col f'.line f'.col (by rw [← ef, ← ef']; exact h2)
        rw [C.txt h2]
        generalize NS.jBlock f.txt f.ch f.line f.col = x at h3
        generalize NS.jBlock f.txt f.ch f'.line f'.col = y at h3
        obtain ⟨a, cx⟩ := x
        obtain ⟨b, cy⟩ := y
        obtain ⟨e, h3⟩ := h3
        simp only at e h3
        subst e
        cases b with
        | true => exact ih h3
        | false => exact ⟨rfl, h3⟩
      · exact ⟨rfl, h2⟩
    · exact h1

theorem jTok (fl : FloatOps) : Rel (C.sim P) (jTok fl) (NS.jTok fl) := by
  rintro ⟨c, t, sb, ib⟩ ⟨c', t', sb', ib'⟩ ⟨h, e1, e2, e3⟩
  simp only at h e1 e2 e3
  subst e1 e2 e3
  unfold NS.jTok
  simp only [ch h]
  split
  · exact ⟨rfl, h, rfl, rfl, rfl⟩
  cases jPunct c.ch with
  | some t => exact ⟨rfl, C.next h, rfl, rfl, rfl⟩
  | none =>
    simp only
    split
    · have h1 := lexNum h fl
      generalize NS.lexNum jcol fl c = x at h1
      generalize NS.lexNum jcol fl c' = y at h1
      obtain ⟨a, cx⟩ := x
      obtain ⟨b, cy⟩ := y
      obtain ⟨e, h1⟩ := h1
      simp only at e h1
      subst e
      cases b with
      | some t => exact ⟨rfl, h1, rfl, rfl, rfl⟩
      | none => exact .inr ⟨⟨rfl, _, _, h1, rfl, rfl, rfl, rfl⟩, h1, rfl, rfl, rfl⟩
    split
    · obtain ⟨e, h1⟩ := span (p := isIdStart) h
      rw [e]
      split
      · exact ⟨rfl, h1, rfl, rfl, rfl⟩
      split
      · exact ⟨rfl, h1, rfl, rfl, rfl⟩
      split
      · exact ⟨rfl, h1, rfl, rfl, rfl⟩
      · exact .inr ⟨⟨rfl, _, _, h1, rfl, rfl, rfl, rfl⟩, h1, rfl, rfl, rfl⟩
    split
    · have h1 := lexStr (C.next h) (c.txt.length + 1) []
      rw [C.txt h]
      generalize NS.lexStr jcol (c.txt.length + 1) (c.next jcol) [] = x at h1
      generalize NS.lexStr jcol (c.txt.length + 1) (c'.next jcol) [] = y at h1
      cases x with
      | done c1 b =>
        cases y with
        | done c2 b' => obtain ⟨rfl, h1⟩ := h1; exact ⟨rfl, h1, rfl, rfl, rfl⟩
        | _ => exact h1.elim
      | bad c1 b =>
        cases y with
        | bad c2 b' => obtain ⟨rfl, h1⟩ := h1; exact .inr ⟨⟨rfl, _, _, h1, rfl, rfl, rfl, rfl⟩, h1, rfl, rfl, rfl⟩
        | _ => exact h1.elim
      | oof => trivial
    · exact .inr ⟨⟨rfl, _, _, h, rfl, rfl, rfl, rfl⟩, h, rfl, rfl, rfl⟩

theorem jNext (fl : FloatOps) : Rel (C.sim P) (jNext fl) (NS.jNext fl) := by
  rintro s s' hs
  unfold NS.jNext
  rw [C.txt hs.1]
  have h1 := jSkip hs.1 (s.cur.txt.length + 1)
  generalize NS.jSkip (s.cur.txt.length + 1) s.cur = x at h1
  generalize NS.jSkip (s.cur.txt.length + 1) s'.cur = y at h1
  cases x with
  | «at» c =>
    cases y with
    | «at» c' => exact jTok fl _ _ ⟨h1, hs.2⟩
    | _ => exact h1.elim
  | bad c w =>
    cases y with
    | bad c' w' =>
      obtain ⟨rfl, h1⟩ := h1
      exact .inr ⟨⟨by simp only [hs.2.1], _, _, h1, rfl, rfl, rfl, rfl⟩, h1, hs.2⟩
    | _ => exact h1.elim
  | oof => trivial

end CurRel

/-! ## RON -/

namespace CurRel
variable {C : CurRel rcol} {P : Prop}

theorem rBlock (t : List Char) : ∀ (x : Bool) (l c l' c' : Nat), C.Q ⟨t, l, c⟩ ⟨t, l', c'⟩ →
    C.Q (rBlock t x l c) (NS.rBlock t x l' c') := by
  induction t with
  | nil => intro x l c l' c' h; exact h
  | cons y t ih =>
    intro x l c l' c' h
    simp only [NS.rBlock]
    have hn := C.next h
    split
    · exact h
    split
    · exact hn
    · refine ih _ _ _ _ _ ?_
      rw [← Cur.next_eta, ← Cur.next_eta]
      exact hn

theorem rSkip (n : Nat) : Rel (C.sim P) (rSkip n) (NS.rSkip n) := by
  induction n with
  | zero => exact Rel.oof _
  | succ n ih =>
    rintro ⟨c, t, sb, ib⟩ ⟨c', t', sb', ib'⟩ ⟨h, e1, e2, e3⟩
    simp only at h e1 e2 e3
    subst e1 e2 e3
    simp only [NS.rSkip]
    have h1 := (span (p := isWs) h).2
    generalize (c.span rcol isWs).2 = d at h1
    generalize (c'.span rcol isWs).2 = d' at h1
    rw [ch h1]
    have h2 := C.next h1
    generalize d.next rcol = f at h2
    generalize d'.next rcol = f' at h2
    simp only [ch h2]
    split
    · split
      · have h3 := (span (p := fun x => x ≠ '\n' && x ≠ '\x00') h2).2
        refine ih _ _ ⟨?_, rfl, rfl, rfl⟩
        simp only [ch h3]
        split
        · exact C.next h3
        · exact h3
      split
      · have ef : f = ⟨f.txt, f.line, f.col⟩ := rfl
        have ef' : f' = ⟨f.txt, f'.line, f'.col⟩ := by conv => lhs; rw [show f' = ⟨f'.txt, f'.line, f'.col⟩ from rfl]; rw [C.txt h2]
        have h3 := rBlock f.txt false f.line f.col f'.line f'.col (by rw [← ef, ← ef']; exact h2)
        rw [C.txt h2]
        exact ih _ _ ⟨h3, rfl, rfl, rfl⟩
      · exact .inr ⟨⟨rfl, _, _, h2, rfl, rfl, rfl, rfl⟩, h2, rfl, rfl, rfl⟩
    split
    · have h3 : C.Q (if f.ch = '\\' then f.next rcol else f) (if f.ch = '\\' then f'.next rcol else f') := by
        split
        · exact C.next h2
        · exact h2
      generalize (if f.ch = '\\' then f.next rcol else f) = g at h3
      generalize (if f.ch = '\\' then f'.next rcol else f') = g' at h3
      simp only [ch h3, ch (C.next h3)]
      split
      · exact .inr ⟨⟨rfl, _, _, C.next h3, rfl, rfl, rfl, rfl⟩, C.next h3, rfl, rfl, rfl⟩
      · exact ih _ _ ⟨C.next (C.next h3), rfl, rfl, rfl⟩
    · exact ⟨rfl, h1, rfl, rfl, rfl⟩

theorem rTok (fl : FloatOps) : Rel (C.sim P) (rTok fl) (NS.rTok fl) := by
  rintro ⟨c, t, sb, ib⟩ ⟨c', t', sb', ib'⟩ ⟨h, e1, e2, e3⟩
  simp only at h e1 e2 e3
  subst e1 e2 e3
  unfold NS.rTok
  simp only [ch h]
  split
  · exact ⟨rfl, h, rfl, rfl, rfl⟩
  cases rPunct c.ch with
  | some t => exact ⟨rfl, C.next h, rfl, rfl, rfl⟩
  | none =>
    simp only
    split
    · have h1 := lexNum h fl
      generalize NS.lexNum rcol fl c = x at h1
      generalize NS.lexNum rcol fl c' = y at h1
      obtain ⟨a, cx⟩ := x
      obtain ⟨b, cy⟩ := y
      obtain ⟨e, h1⟩ := h1
      simp only at e h1
      subst e
      cases b with
      | some t => exact ⟨rfl, h1, rfl, rfl, rfl⟩
      | none => exact .inr ⟨⟨rfl, _, _, h1, rfl, rfl, rfl, rfl⟩, h1, rfl, rfl, rfl⟩
    split
    · obtain ⟨e, h1⟩ := span (p := isIdChar) h
      rw [e]
      split
      · exact ⟨rfl, h1, rfl, rfl, rfl⟩
      split
      · exact ⟨rfl, h1, rfl, rfl, rfl⟩
      · exact ⟨rfl, h1, rfl, rfl, rfl⟩
    split
    · have h1 := lexStr (C.next h) (c.txt.length + 1) []
      rw [C.txt h]
      generalize NS.lexStr rcol (c.txt.length + 1) (c.next rcol) [] = x at h1
      generalize NS.lexStr rcol (c.txt.length + 1) (c'.next rcol) [] = y at h1
      cases x with
      | done c1 b =>
        cases y with
        | done c2 b' => obtain ⟨rfl, h1⟩ := h1; exact ⟨rfl, h1, rfl, rfl, rfl⟩
        | _ => exact h1.elim
      | bad c1 b =>
        cases y with
        | bad c2 b' => obtain ⟨rfl, h1⟩ := h1; exact .inr ⟨⟨rfl, _, _, h1, rfl, rfl, rfl, rfl⟩, h1, rfl, rfl, rfl⟩
        | _ => exact h1.elim
      | oof => trivial
    · exact .inr ⟨⟨rfl, _, _, h, rfl, rfl, rfl, rfl⟩, h, rfl, rfl, rfl⟩

theorem rNext (fl : FloatOps) : Rel (C.sim P) (rNext fl) (NS.rNext fl) := by
  have e : NS.rNext fl = fun st => (NS.rSkip (st.cur.txt.length + 1) >>= fun _ => NS.rTok fl) st := by
    funext st
    rw [M.bind_def]
    unfold NS.rNext
    cases NS.rSkip (st.cur.txt.length + 1) st <;> rfl
  intro s s' hs
  rw [e]
  simp only [C.txt hs.1]
  exact Rel.bind (rSkip _) (fun _ => rTok fl) s s' hs

end CurRel
end NS
