import Verif.Spec.JsonDoc
import Verif.Spec.TextErr
import Verif.Spec.Prog
/-!
# Comparing results, positions in a text
-/
namespace NS

/-- Two readers return the same value, or fail for the same reason, or both panic, or both never
return. -/
def SameResult (f g : Nat → Out PErr PSt Val) : Prop :=
  (∀ v, Decodes f v ↔ Decodes g v) ∧ (∀ why, RejectsWith f why ↔ RejectsWith g why) ∧
  (Panics f ↔ Panics g) ∧ (Hangs f ↔ Hangs g)

/-- Two texts that differ only in layout at their beginning, or consist of layout only. -/
def SameTail (t t' : List Char) : Prop :=
  (∃ w w' r, Layout w ∧ Layout w' ∧ t = w ++ r ∧ t' = w' ++ r) ∨ (LayoutEnd t ∧ LayoutEnd t')

/-- Two JSON texts with the same tokens but different layout between them: the lexemes `ls` with
arbitrary layout before each, then a common rest `r` (which need not consist of tokens) behind
arbitrary layout. -/
def SameTokens (fl : FloatOps) (txt txt' : List Char) : Prop :=
  ∃ ls t t', JDoc fl ls txt t ∧ JDoc fl ls txt' t' ∧ SameTail t t'

/-- Number of newlines. -/
def newlines (s : List Char) : Nat := (s.filter (· == '\n')).length

/-- Number of characters since the last newline (or the beginning). -/
def sinceNewline (s : List Char) : Nat := (s.reverse.takeWhile (· != '\n')).length

/-- No built-in tuple type occurs in the type. -/
def noTuple : Ty → Bool
  | .option t | .vec t | .linked t | .hset t | .bset t | .array t _ | .box t => noTuple t
  | .hmap a b | .bmap a b => noTuple a && noTuple b
  | .pair _ _ | .triple _ _ _ | .quad _ _ _ _ => false
  | _ => true

/-- No built-in tuple type occurs in the program. -/
def NoTuples (env : Env) : Prop :=
  (∀ d ∈ env.defs, ∀ t ∈ d.tys, noTuple t = true) ∧ ∀ p ∈ env.proxies, noTuple p.ty = true

end NS
