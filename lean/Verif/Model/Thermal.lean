import Verif.Model.Random
import Mathlib.Analysis.Complex.Exponential

/-!
# Model of the weights of `thermal_chooser`

The temperature and the weights are real numbers: rounding is not modelled (a weight that is too small becomes 0 in floating point).
-/

namespace OE.Paths
open OE OE.Py

/-- The temperature used in a step (path_random.py:259-260). -/
noncomputable def stepTemperature (rel : Bool) (temperature cmin : ℝ) : ℝ := if rel then temperature * max 1 |cmin| else temperature

open Classical in
/-- The weights of the choices (path_random.py:255-267), whose costs are given; `cmin = costs[0]`. -/
noncomputable def energies (rel : Bool) (temperature : ℝ) (costs : List ℚ) : List ℝ :=
  match costs with
  | [] => []
  | cmin :: _ =>
    let t := stepTemperature rel temperature cmin
    if t = 0 then costs.map (fun c : ℚ => if c = cmin then 1 else 0)
    else costs.map (fun c : ℚ => Real.exp (-((c : ℝ) - (cmin : ℝ)) / t))

open Classical in
/-- The place that `bisect` finds for `x` among the sums of the weights, the last place excepted: part of `random.choices` (called at path_random.py:270). -/
noncomputable def pickAt : List ℝ → ℝ → Nat
  | [], _ => 0
  | [_], _ => 0
  | w :: w' :: ws, x => if x < w then 0 else pickAt (w' :: ws) (x - w) + 1

/-- `random.choices(range(n), weights=weights)` (path_random.py:270) of the standard library, where `random.random()` is `u`. -/
noncomputable def randomChoice (weights : List ℝ) (u : ℝ) : Nat := pickAt weights (u * weights.sum)

/-- The choice of `thermal_chooser`; `u` is the random number of the step. -/
noncomputable def thermalPick (rel : Bool) (temperature : ℝ) (u : Path → ℝ) : Path → List ℚ → Nat :=
  fun path costs => randomChoice (energies rel temperature costs) (u path)

end OE.Paths
