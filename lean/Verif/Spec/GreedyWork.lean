import Verif.Spec.LocalChoice
import Mathlib.Algebra.BigOperators.Group.Finset.Basic
import Mathlib.Data.Nat.Choose.Basic

/-!
# How long greedy may take
-/

namespace OE.Spec
open OE OE.Py

/-- The number of different operands that have the label. -/
def sharers (inputs : List (Finset Nat)) (c : Nat) : Nat := (inputs.toFinset.filter (fun s => c ∈ s)).card

/-- The labels of the operands that are not reserved. -/
def freeLabels (inputs : List (Finset Nat)) (reserved : Finset Nat) : Finset Nat := inputs.toFinset.biUnion (fun s => s \ reserved)

/-- One for each label and each operand that has it but one. -/
def labelMeetings (inputs : List (Finset Nat)) (reserved : Finset Nat) : Nat := ∑ c ∈ freeLabels inputs reserved, (sharers inputs c - 1)

/-- One for each label and each pair of operands that have it. -/
def labelPairs (inputs : List (Finset Nat)) (reserved : Finset Nat) : Nat := ∑ c ∈ freeLabels inputs reserved, (sharers inputs c).choose 2

/-- The number of labels of the operands, each counted as often as it occurs. -/
def writtenLabels (inputs : List (Finset Nat)) : Nat := (inputs.map Finset.card).sum

end OE.Spec
