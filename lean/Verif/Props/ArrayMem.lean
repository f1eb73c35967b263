import Verif.Lemmas.ArrayMem
import Verif.Props.ExamplesText
import Verif.Props.JsonHalts
import Verif.Model.Ron
/-!
# C82: reading `[T; N]` with `MaybeUninit` is sound

For every length, every element reader and every point at which reading stops.
-/
namespace NS
variable {ε σ : Type}

/-! ## The result is that of a plain loop, and nothing uninitialised is read -/

/-- **C82**, binary. -/
theorem C82_bin_array_sound (env : Env) (chk : Bool) (d : List Byte) (n : Nat) (t : Ty) (N : Nat) (o : Nat) (h : Heap) :
    (arrayMem (pure ()) (deBin env chk d n t) (pure ()) (pure ()) N o h).seen = some (deBin env chk d (n + 1) (.array t N) o) := by
  have e : arrayPlain (pure ()) (deBin env chk d n t) (pure ()) (pure ()) N o = deBin env chk d (n + 1) (.array t N) o := by
    have : ((deBin env chk d n t) >>= fun v => (pure () : BinM Unit) >>= fun _ => (pure v : BinM Val)) = deBin env chk d n t := by
      funext o
      show M.bind _ _ o = _
      unfold M.bind
      cases deBin env chk d n t o <;> rfl
    unfold arrayPlain
    rw [this]
    rfl
  rw [← e]
  rcases arrayMem_spec (pure ()) (deBin env chk d n t) (pure ()) (pure ()) N o h with
    ⟨os, s', h1, _, h3⟩ | ⟨e, s', k, l, h1, _, _, h4⟩ | ⟨k, l, h1, _, h3⟩ | ⟨h1, h2⟩
  · rw [h1, h3]; rfl
  · rw [h1, h4]; rfl
  · rw [h1, h3]; rfl
  · rw [h1, h2]; rfl

/-- **C82**, JSON. -/
theorem C82_json_array_sound (env : Env) (fl : FloatOps) (n : Nat) (t : Ty) (N : Nat) (st : PSt) (h : Heap) :
    (arrayMem (blockOpen (jNext fl)) (deJson env fl n t) (eatCommaBlock (jNext fl)) (blockClose (jNext fl)) N st h).seen =
      some (deJson env fl (n + 1) (.array t N) st) := by
  have e : arrayPlain (blockOpen (jNext fl)) (deJson env fl n t) (eatCommaBlock (jNext fl)) (blockClose (jNext fl)) N st =
      deJson env fl (n + 1) (.array t N) st := rfl
  rw [← e]
  rcases arrayMem_spec (blockOpen (jNext fl)) (deJson env fl n t) (eatCommaBlock (jNext fl)) (blockClose (jNext fl)) N st h with
    ⟨os, s', h1, _, h3⟩ | ⟨e, s', k, l, h1, _, _, h4⟩ | ⟨k, l, h1, _, h3⟩ | ⟨h1, h2⟩
  · rw [h1, h3]; rfl
  · rw [h1, h4]; rfl
  · rw [h1, h3]; rfl
  · rw [h1, h2]; rfl

/-- **C82**, RON. -/
theorem C82_ron_array_sound (env : Env) (fl : FloatOps) (n : Nat) (t : Ty) (N : Nat) (st : PSt) (h : Heap) :
    (arrayMem (parenOpen (rNext fl)) (deRon env fl n t) (eatCommaParen (rNext fl)) (parenClose (rNext fl)) N st h).seen =
      some (deRon env fl (n + 1) (.array t N) st) := by
  have e : arrayPlain (parenOpen (rNext fl)) (deRon env fl n t) (eatCommaParen (rNext fl)) (parenClose (rNext fl)) N st =
      deRon env fl (n + 1) (.array t N) st := rfl
  rw [← e]
  rcases arrayMem_spec (parenOpen (rNext fl)) (deRon env fl n t) (eatCommaParen (rNext fl)) (parenClose (rNext fl)) N st h with
    ⟨os, s', h1, _, h3⟩ | ⟨e, s', k, l, h1, _, _, h4⟩ | ⟨k, l, h1, _, h3⟩ | ⟨h1, h2⟩
  · rw [h1, h3]; rfl
  · rw [h1, h4]; rfl
  · rw [h1, h3]; rfl
  · rw [h1, h2]; rfl

/-! ## Every element is owned by exactly one party -/

/-- **C82**: when the array is returned it consists of the `N` elements created, each once and in
order, and no destructor of an element has run. -/
theorem C82_array_returned (open_ : M ε σ Unit) (x : M ε σ Val) (eat close : M ε σ Unit) (N : Nat) (s s' : σ) (h h' : Heap)
    (os : List Owned) (hr : arrayMem open_ x eat close N s h = .ok os s' h') :
    os.length = N ∧ os.map Owned.id = created h h' ∧ h'.dropped = h.dropped := by
  rcases arrayMem_spec open_ x eat close N s h with
    ⟨os1, s1, h1, h2, _⟩ | ⟨e, s1, k, l, h1, _⟩ | ⟨k, l, h1, _⟩ | ⟨h1, _⟩
  · rw [hr] at h1
    injection h1 with e1 e2 e3
    subst e1 e3
    refine ⟨?_, by simp [created, h2], rfl⟩
    have := congrArg List.length h2
    simpa using this
  all_goals rw [hr] at h1; exact absurd h1 (by simp)

/-- **C82**: when an error is returned, every element created has been destroyed exactly once: there
is no leak and no double drop. -/
theorem C82_array_error_drops (open_ : M ε σ Unit) (x : M ε σ Val) (eat close : M ε σ Unit) (N : Nat) (s s' : σ) (h h' : Heap)
    (e : ε) (hr : arrayMem open_ x eat close N s h = .err e s' h') :
    h'.dropped.Perm (h.dropped ++ created h h') ∧ (created h h').length ≤ N := by
  rcases arrayMem_spec open_ x eat close N s h with
    ⟨os1, s1, h1, _⟩ | ⟨e1, s1, k, l, h1, h2, h3, _⟩ | ⟨k, l, h1, _⟩ | ⟨h1, _⟩
  · rw [hr] at h1; exact absurd h1 (by simp)
  · rw [hr] at h1
    injection h1 with e1 e2 e3
    subst e3
    exact ⟨List.Perm.append_left _ (by simpa [created] using h3), by simpa [created] using h2⟩
  all_goals rw [hr] at h1; exact absurd h1 (by simp)

/-- **C82**: also when the reader of an element panics no element is destroyed twice (elements read
before may be leaked, which is safe). -/
theorem C82_array_panic_no_double_drop (open_ : M ε σ Unit) (x : M ε σ Val) (eat close : M ε σ Unit) (N : Nat) (s : σ) (h h' : Heap)
    (hr : arrayMem open_ x eat close N s h = .panic h') :
    ∃ l, h'.dropped = h.dropped ++ l ∧ l.Nodup ∧ ∀ i ∈ l, i ∈ created h h' := by
  rcases arrayMem_spec open_ x eat close N s h with
    ⟨os1, s1, h1, _⟩ | ⟨e1, s1, k, l, h1, _⟩ | ⟨k, l, h1, h2, _⟩ | ⟨h1, _⟩
  · rw [hr] at h1; exact absurd h1 (by simp)
  · rw [hr] at h1; exact absurd h1 (by simp)
  · rw [hr] at h1
    injection h1 with e3
    subst e3
    refine ⟨l, rfl, h2.nodup (List.nodup_range' ..), fun i hi => ?_⟩
    have := h2.subset hi
    simpa [created] using this
  · rw [hr] at h1; exact absurd h1 (by simp)

/-! ## Examples -/

/-- The elements destroyed, or `none` if there is no error. -/
def droppedOnErr : UOut ε σ (List Owned) → Option (List Nat)
  | .err _ _ h => some h.dropped
  | _ => none

/-- `<[String; 3]>::deserialize_json("[\"a\", \"b\", 5]")`: the third element is not a string; the two
strings read before are dropped, once each. -/
example : droppedOnErr ((fun st => arrayMem (blockOpen (jNext toyFloat)) (deJson exNoNamed toyFloat 5 .str)
      (eatCommaBlock (jNext toyFloat)) (blockClose (jNext toyFloat)) 3 st ⟨0, []⟩)
    { cur := ⟨"\"a\", \"b\", 5]".toList, 0, 2⟩, tok := .blockOpen, strbuf := [], identbuf := [] }) = some [0, 1] := by
  decide +kernel

/-- `["a" "b"`: the separator after the first element is missing; that element is dropped. -/
example : droppedOnErr ((fun st => arrayMem (blockOpen (jNext toyFloat)) (deJson exNoNamed toyFloat 5 .str)
      (eatCommaBlock (jNext toyFloat)) (blockClose (jNext toyFloat)) 3 st ⟨0, []⟩)
    { cur := ⟨"\"a\" \"b\"".toList, 0, 2⟩, tok := .blockOpen, strbuf := [], identbuf := [] }) = some [0] := by
  decide +kernel

/-- `["a", "b", "c"` with a fourth element in place of the closing bracket: all three are dropped. -/
example : droppedOnErr ((fun st => arrayMem (blockOpen (jNext toyFloat)) (deJson exNoNamed toyFloat 5 .str)
      (eatCommaBlock (jNext toyFloat)) (blockClose (jNext toyFloat)) 3 st ⟨0, []⟩)
    { cur := ⟨"\"a\", \"b\", \"c\", \"d\"]".toList, 0, 2⟩, tok := .blockOpen, strbuf := [], identbuf := [] }) = some [0, 1, 2] := by
  decide +kernel

/-- The numbers of the elements returned. -/
def returnedIds : UOut ε σ (List Owned) → Option (List Nat × List Nat)
  | .ok os _ h => some (os.map Owned.id, h.dropped)
  | _ => none

example : returnedIds (arrayMem (σ := PSt) (blockOpen (jNext toyFloat)) (deJson exNoNamed toyFloat 5 .str)
      (eatCommaBlock (jNext toyFloat)) (blockClose (jNext toyFloat)) 2
      { cur := ⟨"\"a\", \"b\"]".toList, 0, 2⟩, tok := .blockOpen, strbuf := [], identbuf := [] } ⟨7, [3]⟩) = some ([7, 8], [3]) := by
  decide +kernel

end NS
