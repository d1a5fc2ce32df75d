import Verif.Model.CustomOptimizer
import Verif.Spec.Exec
import Verif.Spec.Quality

/-!
# What is asked of the trials of a user's `RandomOptimizer`
-/

namespace OE.Spec
open OE OE.Py OE.Paths

/-- `np.random.choice(list(remaining), size=2, replace=False)`: two different ones of the remaining. -/
def TwoOf (choose : Path → Finset Nat → Nat × Nat) : Prop :=
  ∀ path remaining, 1 < remaining.card → (choose path remaining).1 ∈ remaining ∧ (choose path remaining).2 ∈ remaining ∧
    (choose path remaining).1 ≠ (choose path remaining).2

/-- The trials that return, return an SSA path that contracts all inputs. -/
def CompleteTrials (u : ROUse) (inputs : List (Finset Nat)) (output : Finset Nat) : Prop :=
  ∀ size r t, u.trial size inputs output r = .ok t → SsaComplete inputs.length t.path

/-- The trials that return, return an SSA path in pairs that contracts all inputs, with the operation count and the largest result of
the path that `ssa_to_linear` makes of it (by C11 the path that contracts the same). -/
def TrueTrials (u : ROUse) (inputs : List (Finset Nat)) (output : Finset Nat) : Prop :=
  ∀ size r t, u.trial size inputs output r = .ok t → SsaComplete inputs.length t.path ∧ Pairwise2 t.path ∧
    ∀ q, ssaToLinear t.path = .ok q → t.cost = searchFlops size output inputs q ∧ t.size = peak size output inputs q

end OE.Spec
