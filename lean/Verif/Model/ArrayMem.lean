import Verif.Model.Bin
/-!
# Model of the memory handling in `impl De* for [T; N]`

src/serde_bin.rs:452-484, src/serde_json.rs:1051-1092 and src/serde_ron.rs:1041-1082 collect the
elements in a `[MaybeUninit<T>; N]`.  Here the slots of that array, the creation of elements and the
runs of their destructors are modelled; reading an uninitialised slot as a `T` is undefined
behaviour.  Not modelled: a destructor of `T` that panics, and what is created and dropped inside
the reader of `T` before it returns.
-/
namespace NS

/-- A value of type `T` that the reader has returned: its contents, and the how-manieth it is. -/
structure Owned where
  id : Nat
  val : Val

/-- A `MaybeUninit<T>`. -/
inductive Slot where
  | uninit
  | init (o : Owned)

/-- The number of elements created so far, and the elements whose destructor ran, in order. -/
structure Heap where
  made : Nat
  dropped : List Nat

/-- A destructor runs. -/
def Heap.drop (h : Heap) (o : Owned) : Heap := { h with dropped := h.dropped ++ [o.id] }

/-- The destructors of an array run. -/
def Heap.dropAll (h : Heap) (os : List Owned) : Heap := { h with dropped := h.dropped ++ os.map Owned.id }

/-- Outcome of code with `unsafe` in it; `ub` is undefined behaviour. -/
inductive UOut (ε σ α : Type) where
  | ok (a : α) (s : σ) (h : Heap)
  | err (e : ε) (s : σ) (h : Heap)
  | panic (h : Heap)
  | oof
  | ub

/-- `DeJson::de_json(o, d).and_then(|ret| { o.eat_comma_block(d)?; Ok(ret) })`
(src/serde_json.rs:1066-1069; src/serde_ron.rs:1056-1059; src/serde_bin.rs:466 with nothing to
eat): a new element; when the separator is missing `ret` goes out of scope. -/
def elemMem {ε σ : Type} (x : M ε σ Val) (eat : M ε σ Unit) (s : σ) (h : Heap) : UOut ε σ Owned :=
  match x s with
  | .ok v s1 =>
    match eat s1 with
    | .ok _ s2 => .ok ⟨h.made, v⟩ s2 { h with made := h.made + 1 }
    | .err e s2 => .err e s2 (Heap.drop { h with made := h.made + 1 } ⟨h.made, v⟩)
    | .panic => .panic (Heap.drop { h with made := h.made + 1 } ⟨h.made, v⟩)
    | .oof => .oof
  | .err e s1 => .err e s1 h
  | .panic => .panic h
  | .oof => .oof

/-- `for (_, to_drop) in (0..index).zip(to) { unsafe { to_drop.assume_init() }; }`
(src/serde_json.rs:1075-1077, src/serde_ron.rs:1065-1067, src/serde_bin.rs:472-474): the slots that
`zip` pairs with `0..index` are turned into a `T` that is dropped at once.  `none` is undefined
behaviour. -/
def dropFirst : Nat → List Slot → Heap → Option Heap
  | 0, _, h => some h
  | _ + 1, [], h => some h
  | _ + 1, .uninit :: _, _ => none
  | n + 1, .init o :: to, h => dropFirst n to (h.drop o)

/-- `for index in 0..N { to[index] = match .. }` (src/serde_json.rs:1065-1081) from `index` on, with
`todo` rounds left.  Overwriting or forgetting a `MaybeUninit` runs no destructor. -/
def fillMem {ε σ : Type} (x : M ε σ Val) (eat : M ε σ Unit) : (todo index : Nat) → List Slot → σ → Heap → UOut ε σ (List Slot)
  | 0, _, to, s, h => .ok to s h
  | todo + 1, index, to, s, h =>
    match elemMem x eat s h with
    | .ok o s1 h1 => if index < to.length then fillMem x eat todo (index + 1) (to.set index (.init o)) s1 h1 else .panic h1
    | .err e s1 h1 =>
      match dropFirst index to h1 with
      | some h2 => .err e s1 h2
      | none => .ub
    | .panic h1 => .panic h1
    | .oof => .oof
    | .ub => .ub

/-- `(*(&to as *const _ as *const MaybeUninit<_>)).assume_init_read()` (src/serde_json.rs:1086-1087,
src/serde_ron.rs:1076-1077, src/serde_bin.rs:482): every slot has to be initialised. -/
def readAll : List Slot → Option (List Owned)
  | [] => some []
  | .uninit :: _ => none
  | .init o :: to => (readAll to).map (o :: ·)

/-- `de_json`, `de_ron` and `de_bin` of `[T; N]`.  The array `initialized` is dropped if the closing
bracket is missing (src/serde_json.rs:1086-1090). -/
def arrayMem {ε σ : Type} (open_ : M ε σ Unit) (x : M ε σ Val) (eat close : M ε σ Unit) (N : Nat) (s : σ) (h : Heap) :
    UOut ε σ (List Owned) :=
  match open_ s with
  | .ok _ s1 =>
    match fillMem x eat N 0 (List.replicate N .uninit) s1 h with
    | .ok to s2 h2 =>
      match readAll to with
      | none => .ub
      | some os =>
        match close s2 with
        | .ok _ s3 => .ok os s3 h2
        | .err e s3 => .err e s3 (h2.dropAll os)
        | .panic => .panic (h2.dropAll os)
        | .oof => .oof
    | .err e s2 h2 => .err e s2 h2
    | .panic h2 => .panic h2
    | .oof => .oof
    | .ub => .ub
  | .err e s1 => .err e s1 h
  | .panic => .panic h
  | .oof => .oof

end NS
