import Verif.Spec.Laws

/-!
# Slices of arrays along a label
-/

namespace OE.Spec
open OE

/-- A term without a label. -/
def dropLabel (c : Nat) (t : Str) : Str := t.filter (fun b => b ≠ c)

/-- What belongs to the axes of other labels than `c`, of a list with one entry for each label of `t` (a shape or an index). -/
def dropAxes (c : Nat) (t : Str) (l : List Nat) : List Nat := ((t.zip l).filter (fun p => p.1 ≠ c)).map Prod.snd

/-- `B` is the array `A`, whose axes are labelled `t`, with every axis labelled `c` fixed at `x` (an axis of length 1: at 0) and removed. If `t` does
not have the label, `B` and `A` are the same. -/
structure IsSlice {R : Type} (c x : Nat) (t : Str) (A B : Tensor R) : Prop where
  shape : B.shape = dropAxes c t A.shape
  val : ∀ coords, IsIndex A.shape coords →
    (∀ i : Nat, t[i]? = some c → coords[i]? = some (if A.shape[i]? = some 1 then 0 else x)) → B.val (dropAxes c t coords) = A.val coords

/-- The operands `ops'` are the slices of the operands `ops` with the given terms. -/
def AreSlices {R : Type} (c x : Nat) (terms : List Str) (ops ops' : List (Tensor R)) : Prop :=
  ops'.length = ops.length ∧
  ∀ (i : Nat) (t : Str) (A B : Tensor R), terms[i]? = some t → ops[i]? = some A → ops'[i]? = some B → IsSlice c x t A B

end OE.Spec
