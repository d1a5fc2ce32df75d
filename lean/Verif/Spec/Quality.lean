import Verif.Spec.Search
import Mathlib.Algebra.Order.Ring.Rat

/-!
# Comparing paths
-/

namespace OE.Spec
open OE

/-- One pair of (operations, largest intermediate) comes before another: operations first, or sizes first. -/
def LexLess (bySize : Bool) (flops size flops' size' : Nat) : Prop :=
  if bySize then size < size' ∨ (size = size' ∧ flops < flops') else flops < flops' ∨ (flops = flops' ∧ size < size')

/-- Number of elements of the largest result of a step. -/
def peak (size : Nat → Nat) (output : Finset Nat) (terms : List (Finset Nat)) (path : List (List Nat)) : Nat :=
  (resultSizes size output terms path).foldr max 0

/-- A path that contracts two tensors without a common label only when no two remaining tensors have one. -/
def InnerFirst (output : Finset Nat) : List (Finset Nat) → List (List Nat) → Prop
  | _, [] => True
  | terms, p :: ps =>
    ((∃ (i j : Nat) (s t : Finset Nat), i ≠ j ∧ terms[i]? = some s ∧ terms[j]? = some t ∧ ¬ Disjoint s t) →
      ∃ (i j : Nat) (s t : Finset Nat), i ∈ p ∧ j ∈ p ∧ i ≠ j ∧ terms[i]? = some s ∧ terms[j]? = some t ∧ ¬ Disjoint s t) ∧
    InnerFirst output (afterStep output terms p) ps

/-- A label to be summed over, and not only at the very end: neither in the output nor on all inputs. -/
def InnerLabel (inputs : List (Finset Nat)) (output : Finset Nat) (c : Nat) : Prop := c ∉ output ∧ ∃ s ∈ inputs, c ∉ s

/-- A path that contracts two tensors without a common label of the kind `inner` only when no two remaining tensors have one, or when
the two have the same labels. -/
def ConnectedFirst (inner : Nat → Prop) (output : Finset Nat) : List (Finset Nat) → List (List Nat) → Prop
  | _, [] => True
  | terms, p :: ps =>
    ((∃ (i j : Nat) (s t : Finset Nat) (c : Nat), i ≠ j ∧ terms[i]? = some s ∧ terms[j]? = some t ∧ inner c ∧ c ∈ s ∧ c ∈ t) →
      ∃ (i j : Nat) (s t : Finset Nat), i ∈ p ∧ j ∈ p ∧ i ≠ j ∧ terms[i]? = some s ∧ terms[j]? = some t ∧
        (s = t ∨ ∃ c, inner c ∧ c ∈ s ∧ c ∈ t)) ∧
    ConnectedFirst inner output (afterStep output terms p) ps

/-- A path no part of which, counted from the start, costs more than `cutoff` times as much as the same number of steps of
another pairwise path. -/
def WithinCutoff (cutoff : ℚ) (size : Nat → Nat) (output : Finset Nat) (terms : List (Finset Nat)) (path : List (List Nat)) : Prop :=
  ∀ (r : List (List Nat)) (d : Nat), CompletePath terms.length r → Pairwise2 r →
    (searchFlops size output terms (path.take d) : ℚ) ≤ cutoff * searchFlops size output terms (r.take d)

end OE.Spec
