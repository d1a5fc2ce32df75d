import Verif.Model.BranchObject
import Verif.Spec.Again

/-!
# Uses of an optimizer object
-/

namespace OE.Spec
open OE.Paths

/-- The first call, if any, is made with `nbranch` that is `None` or at least 1; `k` is the value before the uses. -/
def FirstCallBranches : Option Int → List BBUse → Prop
  | _, [] => True
  | _, .nbranch v :: rest => FirstCallBranches v rest
  | k, .call _ _ :: _ => ∀ v, k = some v → 1 ≤ v
  | k, .cutoff _ :: rest => FirstCallBranches k rest
  | k, .minimize _ :: rest => FirstCallBranches k rest
  | k, .cost _ :: rest => FirstCallBranches k rest

/-- The number of calls. -/
def callCount (uses : List BBUse) : Nat := (uses.filter (fun u => match u with | .call _ _ => true | _ => false)).length

/-- An assignment to the attribute `minimize`. -/
def IsMinimize : BBUse → Bool
  | .minimize _ => true
  | _ => false

end OE.Spec
