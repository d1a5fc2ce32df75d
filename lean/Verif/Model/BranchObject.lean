import Verif.Model.Branch

/-!
# Model of `opt_einsum/paths.py`: a `BranchBound` object, its constructor and its attributes

`branch` and `branchCalls` take the options as fixed. Here the object is built by the constructor from what the user gives,
and its public attributes may be assigned between calls (docs/paths/branching_path.md:54-60). Simplified: `cost_fn` is a function
or one of the two names that stand for one (another string raises when it is called), and `cutoff_flops_factor` a number
(`None`: Model/NoCutoff.lean). All calls are for one contraction (another is refused, C27).
-/

namespace OE.Paths
open OE OE.Py

/-- A `BranchBound` object: its attributes (paths.py:361-367). `better` is the function that was looked up in `__init__`,
`true` for `better_size_first`. -/
structure BBObj where
  nbranch : Option Int
  cutoff : ℚ
  minimize : Str
  better : Bool
  cost : CostFn
  st : BBSt

/-- `get_better_fn` (paths.py:297-304): `true` stands for `better_size_first`. -/
def getBetterFn (key : Str) : Except PyErr Bool :=
  if key = S "flops" then .ok false else if key = S "size" then .ok true else .error .key

/-- `BranchBound.__init__` (paths.py:331-367). -/
def BBObj.new (nbranch : Option Int) (cutoff : ℚ) (minimize : Str) (cost : CostFn) : Except PyErr BBObj :=
  if nbranch.any (fun k => decide (k < 1)) then .error .value
  else do
    let better ← getBetterFn minimize
    pure { nbranch, cutoff, minimize, better, cost, st := BBSt.fresh }

/-- What a user may do with the object: assign an attribute, or call it (with a memory limit; the order is that of the sets). -/
inductive BBUse where
  | nbranch (v : Option Int)
  | cutoff (v : ℚ)
  | minimize (v : Str)
  | cost (v : CostFn)
  | call (mem : Option Nat) (order : SetOrder)

/-- The options that a call reads (paths.py:427, 434, 449, 481): `self.better`, not `self.minimize`. The loop
`while ... bi < self.nbranch` does nothing for a number below 1. -/
def BBObj.cfg (o : BBObj) : BBCfg := { nbranch := o.nbranch.map Int.toNat, cutoff := o.cutoff, bySize := o.better, cost := o.cost }

/-- One use of the object: what a call gives, and the object afterwards. -/
def BBObj.use (fuel : Nat) (size : Nat → Nat) (inputs : List (Finset Nat)) (output : Finset Nat) (o : BBObj) :
    BBUse → Option (Option (Except PyErr Path) × BBObj)
  | .nbranch v => some (none, { o with nbranch := v })
  | .cutoff v => some (none, { o with cutoff := v })
  | .minimize v => some (none, { o with minimize := v })
  | .cost v => some (none, { o with cost := v })
  | .call mem order => (branchCall o.cfg fuel size mem order inputs output o.st).map (fun r => (some r.1, { o with st := r.2 }))

/-- A sequence of uses: the results of the calls, each with `self.best` after it. -/
def BBObj.uses (fuel : Nat) (size : Nat → Nat) (inputs : List (Finset Nat)) (output : Finset Nat) :
    List BBUse → BBObj → Option (List (Except PyErr Path × WithTop Nat × WithTop Nat))
  | [], _ => some []
  | u :: rest, o => do
    let r ← o.use fuel size inputs output u
    let rs ← BBObj.uses fuel size inputs output rest r.2
    pure ((r.1.toList.map (fun x => (x, r.2.st.flops, r.2.st.size))) ++ rs)

end OE.Paths
