import Verif.Spec.DpReport

/-!
# Two contractions that differ in the order of the operands and in sizes
-/

namespace OE.Spec
open OE OE.Paths

/-- What `contract_path` reports of a path, weighed as `minimize` says. For `limit`, the reported figures do not suffice: it goes by the steps. -/
def reportedScore (metric : Metric) (size : Nat → Nat) (inputs : List Str) (output : Str) (info : Contract.PathInfo) : Nat :=
  match metric with
  | .flops => info.optCost
  | .size => info.largestIntermediate
  | .write => info.sizeList.sum
  | .combo k => info.optCost + 2 * k * info.sizeList.sum
  | .limit k => planScore (.limit k) (planFigures size output.toFinset (inputs.map List.toFinset) info.path)
  | .custom _ => 0

/-- The second network has the same operands as the first up to their order and the order of their labels, and the same output up to the
order of its labels; its axes are at least as long. -/
structure NoSmaller (size size' : Nat → Nat) (inputs inputs' : List Str) (output output' : Str) : Prop where
  operands : (inputs.map List.toFinset).Perm (inputs'.map List.toFinset)
  output : output.toFinset = output'.toFinset
  sizes : ∀ t ∈ inputs, ∀ c ∈ t, size c ≤ size' c

end OE.Spec
