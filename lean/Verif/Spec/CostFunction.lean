import Verif.Model.CostFunction

/-!
# Words for statements on `cost_fn`
-/

namespace OE.Spec
open OE OE.Py OE.Paths

/-- The error `e` is raised by the cost function on some arguments. -/
def CostRaises (costE : CostFnE) (e : PyErr) : Prop := ∃ p a b c x y z, costE p a b c x y z = .error e

/-- Two different sets of labels of operands have a label in common that is not in the output and not on all operands. -/
def Contractible (inputs : List (Finset Nat)) (output : Finset Nat) : Prop :=
  ∃ c, c ∉ output ∧ (∃ k ∈ inputs, c ∉ k) ∧ ∃ k1 ∈ inputs, ∃ k2 ∈ inputs, k1 ≠ k2 ∧ c ∈ k1 ∧ c ∈ k2

end OE.Spec
