import Verif.Spec.Contract
import Mathlib.Data.List.Perm.Basic

/-!
# Rules for the data type of a result
-/

namespace OE.Spec

/-- The rule neither looks at the order of the operands nor at the order in which they are combined. -/
structure Promotion {D : Type} (promote : List D → D) : Prop where
  single : ∀ a, promote [a] = a
  perm : ∀ l l' : List D, l.Perm l' → promote l = promote l'
  nested : ∀ l r : List D, l ≠ [] → promote (promote l :: r) = promote (l ++ r)

end OE.Spec
