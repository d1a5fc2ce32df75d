import Verif.Model.Random
import Verif.Model.Registry

/-!
# Model of `opt_einsum/path_random.py`: one `RandomGreedy` instance used again and again as `optimize`

The attributes `max_repeats`, `max_time`, `pre_dispatch`, `parallel`, `nbranch`, `temperature` and `cost_fn` may be changed between uses.
`_check_args_against_first_call` (paths.py:46-60) is left out: all uses are for the same operands.
-/

namespace OE.Paths
open OE OE.Py OE.Registry OE.Contract

/-- What a use of the instance depends on: its attributes, the clock and the random numbers. -/
structure RGUse where
  maxRepeats : Nat
  preDispatch : Option Nat
  late : Nat → Bool
  nbranch : Nat
  pick : Nat → Path → List ℚ → Nat
  cost : Nat → CostFn
  fuel : Nat

/-- The trials (path_random.py:305-323, 376-383). Loops that do not end within the fuel are reported as `StopIteration`. -/
def RGUse.trial (u : RGUse) (order : GOrder) (size : Nat → Nat) (sets : List (Finset Nat)) (output : Finset Nat) (r : Nat) : Except PyErr Trial :=
  (trialGreedy u.fuel size u.cost (randomGreedyChooser u.nbranch u.pick) order sets output r).getD (.error .stopIteration)

/-- A call of the instance (path_random.py:159-203): the path and the new attributes. -/
def RGUse.run (u : RGUse) (bySize : Bool) (order : GOrder) (size : Nat → Nat) (sets : List (Finset Nat)) (output : Finset Nat) (st : ROSt) :
    Except PyErr Path × ROSt :=
  roCall bySize u.maxRepeats u.preDispatch u.late (u.trial order size sets output) st

/-- The instance as `contract_path` sees it in one use; the memory limit is ignored. -/
def RGUse.finder (u : RGUse) (bySize : Bool) (order : GOrder) (st : ROSt) : PathFn :=
  fun sets output d _ => (u.run bySize order (labelSize d) sets output st).1

/-- The attributes of a new instance after a sequence of uses. -/
def afterUses (bySize : Bool) (order : GOrder) (size : Nat → Nat) (sets : List (Finset Nat)) (output : Finset Nat) (uses : List RGUse) : ROSt :=
  uses.foldl (fun st u => (u.run bySize order size sets output st).2) ROSt.fresh

end OE.Paths
