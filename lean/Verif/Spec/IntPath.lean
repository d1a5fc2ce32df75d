import Verif.Py.Basic
import Mathlib.Data.List.Sort

/-!
# Specification: paths of integers

A step lists the operands to contract by position; a negative position counts from the end. The positions of a step are used from the
largest to the smallest, each one on the list without the operands taken before.
-/

namespace OE.Spec

/-- The positions `xs`, used in this order on a list of `n` operands, are all in range. -/
def PopsInRange (n : Nat) (xs : List Int) : Prop :=
  ∀ (k : Nat) (x : Int), xs[k]? = some x → k < n ∧ -((n - k : Nat) : Int) ≤ x ∧ x < ((n - k : Nat) : Int)

/-- A step that can be made with `n` operands: `xs` are the positions from the largest to the smallest. -/
def StepOfInts (n : Nat) (p : List Int) : Prop :=
  p ≠ [] ∧ ∃ xs : List Int, xs.Perm p ∧ xs.Pairwise (· ≥ ·) ∧ PopsInRange n xs

/-- A path whose every step can be made, starting with `n` operands. -/
def PathOfInts : Nat → List (List Int) → Prop
  | _, [] => True
  | n, p :: ps => StepOfInts n p ∧ PathOfInts (n + 1 - p.length) ps

/-- The number of operands that are left. -/
def leftBy : Nat → List (List Int) → Nat
  | n, [] => n
  | n, p :: ps => leftBy (n + 1 - p.length) ps

/-- A path of at least one step that leaves one operand. -/
def CompleteInts (n : Nat) (path : List (List Int)) : Prop := path ≠ [] ∧ PathOfInts n path ∧ leftBy n path = 1

end OE.Spec
