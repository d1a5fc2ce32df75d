import Verif.Spec.Plan
import Verif.Spec.Exec

/-!
# What the searches minimise, and when their bookkeeping is exact
-/

namespace OE.Spec
open OE

/-- Operations of one contraction as the path finders count them: as `stepFlops`, but an addition is counted only if a
label of *two* of the contracted tensors disappears. -/
def pairFlops (size : Nat → Nat) (output : Finset Nat) (terms : List (Finset Nat)) (p : List Nat) : Nat :=
  (∏ c ∈ labelsAt terms p, size c) *
    (max 1 (p.length - 1) +
      if (labelsAt terms p).filter (fun c => c ∉ keptLabels output terms p ∧ 1 < p.countP (fun i => c ∈ terms.getD i ∅)) = ∅
      then 0 else 1)

/-- The total over a path with recycled positions. -/
def searchFlops (size : Nat → Nat) (output : Finset Nat) : List (Finset Nat) → List (List Nat) → Nat
  | _, [] => 0
  | terms, p :: ps => pairFlops size output terms p + searchFlops size output (afterStep output terms p) ps

/-- The sizes of the results of all steps of a path. -/
def resultSizes (size : Nat → Nat) (output : Finset Nat) : List (Finset Nat) → List (List Nat) → List Nat
  | _, [] => []
  | terms, p :: ps => (∏ c ∈ keptLabels output terms p, size c) :: resultSizes size output (afterStep output terms p) ps

/-- Number of times a label occurs over the inputs and the output. -/
def occurrences (inputs : List (Finset Nat)) (output : Finset Nat) (c : Nat) : Nat :=
  inputs.countP (fun s => c ∈ s) + if c ∈ output then 1 else 0

/-- No label that is summed over is shared by three tensors. (Labels of the output, such as batch labels, may occur on any number of
tensors.) -/
def NoHyperEdges (inputs : List (Finset Nat)) (output : Finset Nat) : Prop :=
  ∀ c, c ∉ output → inputs.countP (fun s => c ∈ s) ≤ 2

/-- Every label that occurs, occurs at least twice: no tensor has an axis that is summed alone. -/
def NoLoneLabels (inputs : List (Finset Nat)) (output : Finset Nat) : Prop := ∀ s ∈ inputs, ∀ c ∈ s, 2 ≤ occurrences inputs output c

/-- A pairwise path: every step contracts two tensors. -/
def Pairwise2 (path : List (List Nat)) : Prop := ∀ p ∈ path, p.length = 2

end OE.Spec
