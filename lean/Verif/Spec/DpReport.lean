import Verif.Spec.Dp
import Verif.Spec.Search
import Verif.Spec.Plan
import Verif.Model.Registry

/-!
# Paths without outer products, and what dynamic programming is to minimise
-/

namespace OE.Spec
open OE OE.Paths

/-- No step of the path is an outer product: the tensors contracted have a label in common that is not an output. -/
def NoOuterPath (output : Finset Nat) : List (Finset Nat) → List (List Nat) → Prop
  | _, [] => True
  | terms, p :: ps => (∃ c, c ∉ output ∧ ∀ i ∈ p, c ∈ terms.getD i ∅) ∧ NoOuterPath output (afterStep output terms p) ps

/-- The figures of the steps of a path as the argument `minimize` weighs them: operations count twice the products of an inner product,
and so does the factor of the elements written. Functions of the user have no score. -/
def planScore : Metric → List StepFigures → Nat
  | .flops, l => (l.map StepFigures.flops).sum
  | .size, l => (l.map StepFigures.elements).foldr max 0
  | .write, l => (l.map StepFigures.elements).sum
  | .combo k, l => (l.map (fun f => f.flops + 2 * k * f.elements)).sum
  | .limit k, l => (l.map (fun f => max f.flops (2 * k * f.elements))).sum
  | .custom _, _ => 0

/-- The optimizer `DynamicProgramming(minimize, cost_cap, search_outer)` given as `optimize`, as `contract_path` sees it. -/
def dpFinder (cfg : DPCfg) (order : PopOrder) (fuel : Nat) : Contract.PathFn :=
  Registry.asPathFn fun size limit inputs output => dpCall cfg order size limit inputs output fuel

/-- The path of the one is at most as bad as that of the other, by the figures that `contract_path` reports and that `minimize` names; `slack` is
the factor allowed where operations count. It says something of the named cost models only. For `limit`, the reported figures do not suffice: it goes by the steps. -/
def NoWorse (metric : Metric) (slack : Nat) (size : Nat → Nat) (output : Finset Nat) (sets : List (Finset Nat)) (info info' : Contract.PathInfo) : Prop :=
  match metric with
  | .flops => info.optCost ≤ slack * info'.optCost
  | .size => info.largestIntermediate ≤ info'.largestIntermediate
  | .write => info.sizeList.sum ≤ info'.sizeList.sum
  | .combo k => info.optCost + 2 * k * info.sizeList.sum ≤ slack * (info'.optCost + 2 * k * info'.sizeList.sum)
  | .limit k => planScore (.limit k) (planFigures size output sets info.path) ≤ slack * planScore (.limit k) (planFigures size output sets info'.path)
  | .custom _ => False

end OE.Spec
