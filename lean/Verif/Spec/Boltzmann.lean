import Mathlib.Analysis.Complex.Exponential

/-!
# The Boltzmann distribution
-/

namespace OE.Spec

/-- The random numbers in `[0, 1)` that lead to the choice `i` form an interval of length `p`. -/
def Chance (pick : ℝ → Nat) (i : Nat) (p : ℝ) : Prop :=
  ∃ a b : ℝ, 0 ≤ a ∧ b ≤ 1 ∧ b - a = p ∧ ∀ u, 0 ≤ u → u < 1 → (pick u = i ↔ a ≤ u ∧ u < b)

/-- The probability of a choice of cost `c` among choices of the given costs at the temperature `t`. -/
noncomputable def boltzmann (t : ℝ) (costs : List ℚ) (c : ℚ) : ℝ := Real.exp (-(c : ℝ) / t) / (costs.map (fun c : ℚ => Real.exp (-(c : ℝ) / t))).sum

end OE.Spec
