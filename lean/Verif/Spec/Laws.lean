import Verif.Spec.Einsum

/-!
# What the laws of the Einstein sum speak of
-/

namespace OE.Spec
open OE
variable {R : Type} [CommSemiring R]

/-- `coords` is an index of an array of the given shape. -/
def IsIndex (shape coords : List Nat) : Prop :=
  coords.length = shape.length ∧ ∀ (i d x : Nat), shape[i]? = some d → coords[i]? = some x → x < d

/-- `S` is `α * A + β * B`, for arrays of the same shape. -/
def IsCombination (α β : R) (A B S : Tensor R) : Prop :=
  A.shape = S.shape ∧ B.shape = S.shape ∧ ∀ coords, IsIndex S.shape coords → S.val coords = α * A.val coords + β * B.val coords

/-- `B` holds the images under `f` of the elements of `A`. -/
def IsImage {R' : Type} (f : R → R') (A : Tensor R) (B : Tensor R') : Prop :=
  B.shape = A.shape ∧ ∀ coords, IsIndex A.shape coords → B.val coords = f (A.val coords)

end OE.Spec
