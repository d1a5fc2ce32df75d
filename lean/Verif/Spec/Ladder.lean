import Verif.Model.Auto
import Verif.Model.Registry
import Verif.Spec.Search

/-!
# What each name runs

The presets of `optimize` (paths.py:1286-1306, 1320-1371) as a table: which search a name starts for a number of operands.
-/

namespace OE.Spec
open OE OE.Paths OE.Contract OE.Registry

/-- The names that run branch and bound with a single branch, for `n` operands and no memory limit. -/
def RunsOneBranch (b : Builtin) (n : Nat) : Prop := b = .branch1 ∨ (b = .auto ∧ 9 ≤ n ∧ n < 15)

/-- The names that run branch and bound with several branches. -/
def RunsMoreBranches (b : Builtin) (n : Nat) : Prop := b = .branchAll ∨ b = .branch2 ∨ (b = .auto ∧ 5 ≤ n ∧ n < 9)

/-- The names that run the greedy search, once or many times. -/
def RunsGreedy (b : Builtin) (n : Nat) : Prop :=
  b = .greedy ∨ (b = .auto ∧ 15 ≤ n) ∨ b = .randomGreedy ∨ b = .randomGreedy128 ∨ (b = .autoHq ∧ 17 ≤ n)

/-- Every label of the output is on one operand only: there are no batch dimensions. -/
def NoBatch (inputs : List (Finset Nat)) (output : Finset Nat) : Prop := ∀ c ∈ output, inputs.countP (fun s => c ∈ s) ≤ 1

end OE.Spec
