import Verif.Model.Random
import Verif.Model.Registry

/-!
# Model of path optimizers written by the user: `docs/paths/custom_paths.md`, on top of `opt_einsum/path_random.py`

A user's subclass of `RandomOptimizer` is given by what its `setup` returns: any function from the number of a trial to a path with its
figures, or an error. `_check_args_against_first_call` (paths.py:46-60) is left out: all uses are for the same operands.
-/

namespace OE.Paths
open OE OE.Py OE.Registry OE.Contract

/-- The optimizer of the documentation that contracts the first pair again and again (docs/paths/custom_paths.md:12-15). -/
def firstPair : PathFn := fun inputs _ _ _ => .ok (List.replicate (inputs.length - 1) [0, 1])

/-- The loop of `MyRandomOptimizer.random_path` (docs/paths/custom_paths.md:68-75). `choose` stands for `np.random.choice` of two of the
remaining ids; the counter bounds the number of iterations. -/
def randomPathLoop (n : Nat) (choose : Path → Finset Nat → Nat × Nat) : Nat → Finset Nat → Path → Option Path
  | 0, _, _ => none
  | fuel + 1, remaining, path =>
    if 1 < remaining.card then
      let c := choose path remaining
      randomPathLoop n choose fuel (((insert (n + path.length) remaining).erase c.1).erase c.2) (path ++ [[c.1, c.2]])
    else some path

/-- `MyRandomOptimizer.random_path` (docs/paths/custom_paths.md:64-77) for the trial `r`. -/
def randomPath (choose : Nat → Path → Finset Nat → Nat × Nat) (fuel : Nat) (size : Nat → Nat) (inputs : List (Finset Nat)) (output : Finset Nat) (r : Nat) :
    Except PyErr Trial :=
  match randomPathLoop inputs.length (choose r) fuel (Finset.range inputs.length) [] with
  | none => .error .stopIteration
  | some path => match ssaPathCost size path inputs output with
    | .error e => .error e
    | .ok (cost, s) => .ok { path, cost, size := s }

/-- What a use of an instance of a subclass of `RandomOptimizer` depends on: its attributes, the clock, and the trials that its `setup`
prepares from the sizes of the labels, the inputs and the output (path_random.py:106-118, 159-203). -/
structure ROUse where
  maxRepeats : Nat
  preDispatch : Option Nat
  late : Nat → Bool
  trial : (Nat → Nat) → List (Finset Nat) → Finset Nat → Nat → Except PyErr Trial

/-- A call of the instance (path_random.py:159-203): the path and the new attributes. -/
def ROUse.run (u : ROUse) (bySize : Bool) (size : Nat → Nat) (sets : List (Finset Nat)) (output : Finset Nat) (st : ROSt) : Except PyErr Path × ROSt :=
  roCall bySize u.maxRepeats u.preDispatch u.late (u.trial size sets output) st

/-- The instance as `contract_path` sees it in one use; the memory limit is ignored (path_random.py:159-166). -/
def ROUse.finder (u : ROUse) (bySize : Bool) (st : ROSt) : PathFn :=
  fun sets output d _ => (u.run bySize (labelSize d) sets output st).1

/-- The attributes of a new instance after a sequence of uses. -/
def afterROUses (bySize : Bool) (size : Nat → Nat) (sets : List (Finset Nat)) (output : Finset Nat) (uses : List ROUse) : ROSt :=
  uses.foldl (fun st u => (u.run bySize size sets output st).2) ROSt.fresh

end OE.Paths
