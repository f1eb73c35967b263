import Verif.Model.ArrayMem
/-!
# What a caller sees of reading an array (specification)
-/
namespace NS

/-- The outcome without the book-keeping; undefined behaviour has none. -/
def UOut.seen {ε σ : Type} : UOut ε σ (List Owned) → Option (Out ε σ Val)
  | .ok os s _ => some (.ok (.seq (os.map Owned.val)) s)
  | .err e s _ => some (.err e s)
  | .panic _ => some .panic
  | .oof => some .oof
  | .ub => none

/-- The elements created between two points: numbers `h.made`, `h.made + 1`, … -/
def created (h h' : Heap) : List Nat := List.range' h.made (h'.made - h.made)

end NS
