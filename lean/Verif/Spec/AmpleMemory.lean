import Verif.Model.Search

/-! A memory limit that cannot be exceeded. -/

namespace OE.Spec
open OE OE.Paths

/-- No array whose labels are among those of the operands has more than `m` elements. -/
def AmpleMemory (size : Nat → Nat) (inputs : List (Finset Nat)) (m : Nat) : Prop :=
  ∀ s ⊆ inputs.foldr (· ∪ ·) ∅, sizeOf size s ≤ m

end OE.Spec
