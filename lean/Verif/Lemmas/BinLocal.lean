import Verif.Lemmas.Bin
set_option linter.unusedVariables false
set_option linter.unusedSimpArgs false
/-! Locality of the binary reader, by induction over the reader. -/
namespace NS
variable {env : Env} {chk : Bool}

/-- `d'` has the same bytes as `d` at the positions from `o` up to `o'` that it has at all. -/
def SameBytes (d d' : List Byte) (o o' : Nat) : Prop :=
  ∀ i, o ≤ i → i < o' → i < d'.length → d'[i]? = d[i]?

/-- A successful run reads only the bytes between the old and the new offset; cutting the input
inside that range turns it into an error. -/
def Local {α : Type} (x : List Byte → BinM α) : Prop :=
  ∀ d o a o', d.length ≤ isizeMax → x d o = .ok a o' →
    o ≤ o' ∧ (o ≤ d.length → o' ≤ d.length) ∧
    ∀ d', d'.length ≤ isizeMax → o ≤ d'.length → SameBytes d d' o o' →
      (o' ≤ d'.length → x d' o = .ok a o') ∧
      (d'.length < o' → ∃ e s, x d' o = .err e s)

theorem SameBytes.mono {d d' o o' p p'} (h : SameBytes d d' o o') (h1 : o ≤ p) (h2 : p' ≤ o') :
    SameBytes d d' p p' := fun i hi hi' hl => h i (by omega) (by omega) hl

theorem Local.pure {α : Type} (a : α) : Local (fun _ => (Pure.pure a : BinM α)) := by
  intro d o b o' hd h
  simp at h
  obtain ⟨rfl, rfl⟩ := h
  exact ⟨Nat.le_refl _, id, fun d' _ ho _ => ⟨fun _ => by simp, fun h => by omega⟩⟩

/-- Code that neither reads nor moves the offset. -/
theorem Local.const {α : Type} {x : BinM α} (h : ∀ o a o', x o = .ok a o' → o' = o) :
    Local (fun _ => x) := by
  intro d o b o' hd hx
  have := h o b o' hx; subst this
  exact ⟨Nat.le_refl _, id, fun d' _ ho _ => ⟨fun _ => hx, fun h => by omega⟩⟩

theorem Local.bind {α β : Type} {x : List Byte → BinM α} {f : α → List Byte → BinM β}
    (hx : Local x) (hf : ∀ a, Local (f a)) : Local (fun d => x d >>= fun a => f a d) := by
  intro d o b o' hd h
  obtain ⟨a, o1, h1, h2⟩ := M.bind_eq_ok.1 h
  obtain ⟨p1, p2, p3⟩ := hx d o a o1 hd h1
  obtain ⟨q1, q2, q3⟩ := hf a d o1 b o' hd h2
  refine ⟨by omega, fun ho => q2 (p2 ho), fun d' hd' ho hA => ?_⟩
  simp only
  obtain ⟨r1, r2⟩ := p3 d' hd' ho (hA.mono (Nat.le_refl _) q1)
  by_cases hc : o1 ≤ d'.length
  · obtain ⟨s1, s2⟩ := q3 d' hd' hc (hA.mono p1 (Nat.le_refl _))
    refine ⟨fun h' => ?_, fun h' => ?_⟩
    · rw [M.bind_ok (r1 hc)]; exact s1 h'
    · rw [M.bind_ok (r1 hc)]; exact s2 h'
  · refine ⟨fun h' => by omega, fun h' => ?_⟩
    obtain ⟨e, s, he⟩ := r2 (by omega)
    exact ⟨e, s, M.bind_err he⟩

theorem SameBytes.slice {d d' : List Byte} {o o' n : Nat} (h : SameBytes d d' o o') (hn : o + n ≤ o')
    (h1 : o + n ≤ d'.length) : (d'.drop o).take n = (d.drop o).take n := by
  apply List.ext_getElem?
  intro i
  rw [List.getElem?_take, List.getElem?_take]
  split
  · rw [List.getElem?_drop, List.getElem?_drop]
    exact h _ (by omega) (by omega) (by omega)
  · rfl

theorem addUsize_cases {a b o e o' : Nat} (h : addUsize chk a b o = .ok e o') :
    o' = o ∧ ((a + b < 2 ^ 64 ∧ e = a + b) ∨ (2 ^ 64 ≤ a + b ∧ chk = false ∧ e = (a + b) % 2 ^ 64)) := by
  unfold addUsize at h
  split at h
  · rename_i hlt
    injection h with h1 h2
    exact ⟨h2.symm, .inl ⟨hlt, h1.symm⟩⟩
  · split at h
    · simp at h
    · rename_i hge hc
      injection h with h1 h2
      exact ⟨h2.symm, .inr ⟨by omega, by simpa using hc, h1.symm⟩⟩

/-- A successful primitive read. -/
theorem readPrim_ok {d : List Byte} {len o : Nat} {bs : List Byte} {o' : Nat}
    (hl : len < 2 ^ 63) (hd : d.length ≤ isizeMax)
    (h : readPrim chk d len o = .ok bs o') :
    o' = o + len ∧ o + len ≤ d.length ∧ bs = (d.drop o).take len := by
  unfold isizeMax at hd
  simp only [readPrim, M.bind_def, M.get_apply] at h
  cases ha : addUsize chk o len o with
  | ok e s =>
    obtain ⟨rfl, hc⟩ := addUsize_cases ha
    simp only [ha] at h
    split at h
    · simp at h
    · rename_i hle
      simp only [M.bind_def, ha, NS.slice] at h
      by_cases hs : s ≤ e ∧ e ≤ d.length
      · rw [if_pos hs] at h
        simp at h
        rcases hc with ⟨_, rfl⟩ | ⟨h1, _, rfl⟩
        · refine ⟨h.2.symm, by omega, ?_⟩
          rw [← h.1]; congr 1; omega
        · omega
      · rw [if_neg hs] at h; simp at h
  | _ => simp [ha] at h

/-- A primitive read past the end. -/
theorem readPrim_short {d : List Byte} {len o : Nat} (h : d.length < o + len)
    (ho : o ≤ d.length) (hl : len < 2 ^ 63) (hd : d.length ≤ isizeMax) :
    readPrim chk d len o = .err ⟨o, .length len d.length⟩ o := by
  unfold isizeMax at hd
  have ha : addUsize chk o len o = .ok (o + len) o := addUsize_ok (by omega)
  simp only [readPrim, M.bind_def, M.get_apply, ha]
  rw [if_pos h]; rfl

theorem Local.readPrim (len : Nat) (hl : len < 2 ^ 63) :
    Local (fun d => readPrim chk d len) := by
  intro d o bs o' hd h
  obtain ⟨rfl, h2, rfl⟩ := readPrim_ok hl hd h
  refine ⟨by omega, fun _ => h2, fun d' hd' ho hA => ⟨fun h' => ?_, fun h' => ?_⟩⟩
  · simp only; rw [readPrim_eq h' hd', hA.slice (Nat.le_refl _) h']
  · exact ⟨_, _, readPrim_short h' ho hl hd'⟩

theorem readUsize_ok {d : List Byte} {o m o' : Nat} (hd : d.length ≤ isizeMax)
    (h : readUsize chk d o = .ok m o') :
    o' = o + 8 ∧ o + 8 ≤ d.length ∧ m = leVal ((d.drop o).take 8) := by
  unfold isizeMax at hd
  simp only [readUsize, M.bind_def, M.get_apply] at h
  cases ha : addUsize chk o 8 o with
  | ok e s =>
    obtain ⟨rfl, hc⟩ := addUsize_cases ha
    simp only [ha] at h
    split at h
    · rename_i hle
      simp [M.bind_def, ha] at h
      rcases hc with ⟨_, rfl⟩ | ⟨h1, _, rfl⟩
      · refine ⟨h.2.symm, by omega, ?_⟩
        rw [← h.1]; congr 2; omega
      · omega
    · simp at h
  | _ => simp [ha] at h

theorem readUsize_eq {d : List Byte} {o : Nat} (h : o + 8 ≤ d.length) (hd : d.length ≤ isizeMax) :
    readUsize chk d o = .ok (leVal ((d.drop o).take 8)) (o + 8) := by
  unfold isizeMax at hd
  have h1 : ∀ s, addUsize chk o 8 s = .ok (o + 8) s := fun s => addUsize_ok (by omega)
  simp only [readUsize, M.bind_def, M.get_apply, h1]
  rw [if_pos ⟨by omega, h⟩]
  simp [M.bind_def, h1]

theorem readUsize_short {d : List Byte} {o : Nat} (h : d.length < o + 8)
    (ho : o ≤ d.length) (hd : d.length ≤ isizeMax) :
    readUsize chk d o = .err ⟨o, .length 8 d.length⟩ o := by
  unfold isizeMax at hd
  have ha : addUsize chk o 8 o = .ok (o + 8) o := addUsize_ok (by omega)
  simp only [readUsize, M.bind_def, M.get_apply, ha]
  rw [if_neg (by omega)]; rfl

theorem Local.readUsize : Local (fun d => readUsize chk d) := by
  intro d o m o' hd h
  obtain ⟨rfl, h2, rfl⟩ := readUsize_ok hd h
  refine ⟨by omega, fun _ => h2, fun d' hd' ho hA => ⟨fun h' => ?_, fun h' => ?_⟩⟩
  · simp only; rw [readUsize_eq h' hd', hA.slice (Nat.le_refl _) h']
  · exact ⟨_, _, readUsize_short h' ho hd'⟩

/-- The part of the `String` reader after the length prefix. -/
def strBody (chk : Bool) (len : Nat) (d : List Byte) : BinM (List Char) := do
  let o ← M.get
  let e ← addUsize chk o len
  if e > d.length then M.throw ⟨o, .length 1 d.length⟩
  else do
    let e' ← addUsize chk o len
    let bs ← slice d o e'
    match fromUtf8 bs with
    | some s => do
      let e'' ← addUsize chk o len
      M.set e''
      pure s
    | none => M.throw ⟨o, .length len d.length⟩

theorem strBody_ok {d : List Byte} {len o : Nat} {s : List Char} {o' : Nat}
    (hlen : len < 2 ^ 64) (ho : o ≤ d.length) (hd : d.length ≤ isizeMax)
    (h : strBody chk len d o = .ok s o') :
    o' = o + len ∧ o + len ≤ d.length ∧ fromUtf8 ((d.drop o).take len) = some s := by
  unfold isizeMax at hd
  simp only [strBody, M.bind_def, M.get_apply] at h
  cases ha : addUsize chk o len o with
  | ok e s' =>
    obtain ⟨rfl, hc⟩ := addUsize_cases ha
    simp only [ha] at h
    split at h
    · simp at h
    · rename_i hle
      simp only [M.bind_def, ha, NS.slice] at h
      by_cases hs : s' ≤ e ∧ e ≤ d.length
      · rw [if_pos hs] at h
        simp only at h
        rcases hc with ⟨_, rfl⟩ | ⟨h1, _, rfl⟩
        · rw [show s' + len - s' = len by omega] at h
          cases hu : fromUtf8 ((d.drop s').take len) with
          | none => simp [hu] at h
          | some r =>
            simp [hu, M.bind_def, ha] at h
            exact ⟨h.2.symm, by omega, by rw [h.1]⟩
        · omega
      · rw [if_neg hs] at h; simp at h
  | _ => simp [ha] at h

theorem strBody_eq {d : List Byte} {len o : Nat} (h : o + len ≤ d.length)
    (hd : d.length ≤ isizeMax) :
    strBody chk len d o = match fromUtf8 ((d.drop o).take len) with
      | some s => .ok s (o + len)
      | none => .err ⟨o, .length len d.length⟩ o := by
  unfold isizeMax at hd
  have ha : ∀ s', addUsize chk o len s' = .ok (o + len) s' := fun s' => addUsize_ok (by omega)
  simp only [strBody, M.bind_def, M.get_apply, ha]
  rw [if_neg (by omega)]
  simp only [M.bind_def, ha, NS.slice]
  rw [if_pos ⟨by omega, h⟩]
  rw [show o + len - o = len by omega]
  cases hu : fromUtf8 ((d.drop o).take len) with
  | none => simp only [hu]; rfl
  | some s => simp only [hu]; simp [M.bind_def, ha]

theorem strBody_short {d : List Byte} {len o : Nat} (h : d.length < o + len) (hl : o + len < 2 ^ 64) :
    strBody chk len d o = .err ⟨o, .length 1 d.length⟩ o := by
  have ha : ∀ s', addUsize chk o len s' = .ok (o + len) s' := fun s' => addUsize_ok (by omega)
  simp only [strBody, M.bind_def, M.get_apply, ha]
  rw [if_pos h]; rfl

theorem deBinStr_eq_body (d : List Byte) :
    deBinStr chk d = readUsize chk d >>= fun len => strBody chk len d := rfl

theorem Local.deBinStr : Local (fun d => deBinStr chk d) := by
  intro d o s o' hd h
  simp only [deBinStr_eq_body] at h ⊢
  obtain ⟨len, o1, h1, h2⟩ := M.bind_eq_ok.1 h
  obtain ⟨rfl, hb, rfl⟩ := readUsize_ok hd h1
  have hl8 : leVal ((d.drop o).take 8) < 2 ^ 64 := by
    have := leVal_lt ((d.drop o).take 8)
    rw [pow256] at this
    simp at this
    have h8 : min 8 (d.length - o) = 8 := by omega
    rw [h8] at this
    exact this
  generalize hlen : leVal ((d.drop o).take 8) = len at *
  obtain ⟨rfl, hc, hu⟩ := strBody_ok hl8 hb hd h2
  refine ⟨by omega, fun _ => hc, fun d' hd' ho hA => ?_⟩
  have hd1 := hd; have hd2 := hd'
  unfold isizeMax at hd1 hd2
  by_cases hc8 : o + 8 ≤ d'.length
  · have e1 : NS.readUsize chk d' o = .ok len (o + 8) := by
      rw [readUsize_eq hc8 hd', hA.slice (by omega) hc8, hlen]
    rw [M.bind_ok e1]
    refine ⟨fun h' => ?_, fun h' => ?_⟩
    · rw [strBody_eq h' hd', (hA.mono (p := o + 8) (by omega) (Nat.le_refl _)).slice (Nat.le_refl _) h', hu]
    · exact ⟨_, _, strBody_short h' (by omega)⟩
  · refine ⟨fun h' => by omega, fun h' => ⟨_, _, M.bind_err (readUsize_short (by omega) ho hd')⟩⟩

theorem Local.deBinDur : Local (fun d => deBinDur chk d) := by
  refine Local.bind (Local.readPrim 8 (by decide)) fun s => ?_
  refine Local.bind (Local.readPrim 4 (by decide)) fun n => ?_
  apply Local.const
  intro o a o' h
  split at h
  · simp [M.bind_def] at h
  · unfold durNew at h
    split at h
    · simp at h; exact h.2.symm
    · split at h
      · simp at h; exact h.2.symm
      · simp at h

theorem Local.repeatM {α : Type} {x : List Byte → BinM α} (hx : Local x) (n : Nat) :
    Local (fun d => repeatM (x d) n) := by
  induction n with
  | zero => exact Local.pure []
  | succ n ih =>
    exact Local.bind hx fun a => Local.bind ih fun as => Local.pure _

theorem Local.insertLoop {x : List Byte → BinM Val} (hx : Local x) (c : Coll) (n : Nat)
    (acc : List Val) : Local (fun d => insertLoop env c (x d) n acc) := by
  induction n generalizing acc with
  | zero => exact Local.pure acc
  | succ n ih => exact Local.bind hx fun a => ih _

theorem Local.deTys {f : List Byte → Ty → BinM Val} (hf : ∀ t, Local (fun d => f d t))
    (ts : List Ty) : Local (fun d => deTys (f d) ts) := by
  induction ts with
  | nil => exact Local.pure []
  | cons t ts ih => exact Local.bind (hf t) fun a => Local.bind ih fun as => Local.pure _

theorem Local.deFields {f : List Byte → Ty → BinM Val} (hf : ∀ t, Local (fun d => f d t))
    (us : Bool) (fs : List Field) : Local (fun d => deBinFields (f d) us fs) := by
  induction fs with
  | nil => exact Local.pure []
  | cons t ts ih =>
    simp only [deBinFields]
    by_cases h : us ∧ t.skip
    · simp only [if_pos h]
      exact Local.bind (Local.pure _) fun a => Local.bind ih fun as => Local.pure _
    · simp only [if_neg h]
      exact Local.bind (hf t.ty) fun a => Local.bind ih fun as => Local.pure _

theorem Local.entryM {k v : List Byte → BinM Val} (hk : Local k) (hv : Local v) :
    Local (fun d => entryM (k d) (v d)) :=
  Local.bind hk fun _ => Local.bind hv fun _ => Local.pure _

theorem Local.fail {α : Type} (e : BinErr) : Local (fun _ => (M.throw e : BinM α)) :=
  Local.const (by intro o a o' h; simp at h)

theorem Local.oof {α : Type} : Local (fun _ => (M.oof : BinM α)) :=
  Local.const (by intro o a o' h; simp at h)

/-- The reader is local. -/
theorem Local.deBin (n : Nat) (t : Ty) : Local (fun d => deBin env chk d n t) := by
  induction n generalizing t with
  | zero => exact Local.oof
  | succ n ih =>
    cases t with
    | unit => exact Local.pure _
    | bool => exact Local.bind (Local.readPrim 1 (by decide)) fun _ => Local.pure _
    | int k =>
      cases k
      case usize => exact Local.bind Local.readUsize fun _ => Local.pure _
      all_goals exact Local.bind (Local.readPrim _ (by decide)) fun _ => Local.pure _
    | f32 => exact Local.bind (Local.readPrim _ (by decide)) fun _ => Local.pure _
    | f64 => exact Local.bind (Local.readPrim _ (by decide)) fun _ => Local.pure _
    | str => exact Local.bind Local.deBinStr fun _ => Local.pure _
    | dur => exact Local.bind Local.deBinDur fun _ => Local.pure _
    | time =>
      refine Local.bind (Local.readPrim 1 (by decide)) fun tag => ?_
      by_cases h : leVal tag = 1
      · simp only [if_pos h]
        refine Local.bind Local.deBinDur fun _ => Local.const ?_
        intro o a o' h
        simp only [epochPlus] at h
        split at h
        · simp at h; exact h.2.symm
        · simp at h
      · simp only [if_neg h]; exact Local.pure _
    | option t =>
      refine Local.bind (Local.readPrim 1 (by decide)) fun tag => ?_
      by_cases h : leVal tag = 1
      · simp only [if_pos h]
        exact Local.bind (ih t) fun _ => Local.pure _
      · simp only [if_neg h]; exact Local.pure _
    | vec t =>
      refine Local.bind Local.readUsize fun len => Local.bind (Local.const ?_) fun _ =>
        Local.bind (Local.repeatM (ih t) len) fun _ => Local.pure _
      intro o a o' h
      simp only [vecCap] at h
      split at h
      · simp at h; exact h.symm
      · simp at h
    | linked t =>
      exact Local.bind Local.readUsize fun len =>
        Local.bind (Local.repeatM (ih t) len) fun _ => Local.pure _
    | hset t =>
      refine Local.bind Local.readUsize fun len => Local.bind (Local.const ?_) fun _ =>
        Local.bind (Local.insertLoop (ih t) _ len _) fun _ => Local.pure _
      intro o a o' h
      simp only [hashCap] at h
      split at h
      · simp at h
      · simp at h; exact h.symm
    | bset t =>
      exact Local.bind Local.readUsize fun len =>
        Local.bind (Local.insertLoop (ih t) _ len _) fun _ => Local.pure _
    | array t len => exact Local.bind (Local.repeatM (ih t) len) fun _ => Local.pure _
    | pair a b => exact Local.bind (Local.deTys ih _) fun _ => Local.pure _
    | triple a b c => exact Local.bind (Local.deTys ih _) fun _ => Local.pure _
    | quad a b c d => exact Local.bind (Local.deTys ih _) fun _ => Local.pure _
    | hmap k v =>
      refine Local.bind Local.readUsize fun len => Local.bind (Local.const ?_) fun _ =>
        Local.bind (Local.insertLoop (Local.entryM (ih k) (ih v)) _ len _) fun _ => Local.pure _
      intro o a o' h
      simp only [hashCap] at h
      split at h
      · simp at h
      · simp at h; exact h.symm
    | bmap k v =>
      exact Local.bind Local.readUsize fun len =>
        Local.bind (Local.insertLoop (Local.entryM (ih k) (ih v)) _ len _) fun _ => Local.pure _
    | box t => exact Local.bind (ih t) fun _ => Local.pure _
    | named i =>
      simp only [NS.deBin]
      cases env.defs[i]? with
      | none => exact Local.oof
      | some df =>
        cases df with
        | struct fs _ _ => exact Local.bind (Local.deFields ih true fs) fun _ => Local.pure _
        | tuple ts _ => exact Local.bind (Local.deTys ih ts) fun _ => Local.pure _
        | enum vars =>
          refine Local.bind (Local.readPrim 2 (by decide)) fun id => ?_
          cases vars[leVal id]? with
          | none => exact Local.fail _
          | some var =>
            refine Local.bind (f := fun vs d => Pure.pure (Val.variant (leVal id) vs)) ?_
              fun _ => Local.pure _
            cases var.shape with
            | unit => exact Local.pure _
            | tuple ts => exact Local.deTys ih ts
            | named fs => exact Local.deFields ih false fs
    | proxied i =>
      simp only [NS.deBin]
      cases env.proxies[i]? with
      | none => exact Local.oof
      | some px => exact Local.bind (ih px.ty) fun _ => Local.pure _

end NS
