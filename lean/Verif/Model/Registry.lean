import Verif.Model.Auto
import Verif.Model.Subgraphs
import Verif.Model.Contract

/-!
# Model of the registry of path finders (`opt_einsum/paths.py`, `opt_einsum/__init__.py`) and of `optimize="name"`
-/

namespace OE.Registry
open OE OE.Py OE.Paths OE.Contract

/-- What a process fixes for the path finders: the iteration orders of its sets, and per call of a random finder the cost function (with
jitter) and the choice of each trial; `fuel` bounds the loops of the model. -/
structure Env where
  orders : Orders
  cost : Nat → CostFn
  pick : Nat → Path → List ℚ → Nat
  fuel : Nat

/-- The size that `size_dict` gives to a label. The path finders only look up labels of the inputs, which all have a size
(contract.py:307-329). -/
def labelSize (d : Dict Nat Nat) (c : Nat) : Nat := (d.get? c).getD 1

/-- A finder of the model as a path function. Loops that do not end within the fuel are reported as `StopIteration`, an error that none of
the finders raises. -/
def asPathFn (f : (Nat → Nat) → Option Nat → List (Finset Nat) → Finset Nat → Option (Except PyErr Path)) : PathFn :=
  fun inputs output d mem => (f (labelSize d) mem inputs output).getD (.error .stopIteration)

/-- The finders of `_PATH_OPTIONS` (paths.py:1365-1377) and those that `opt_einsum/__init__.py:28-29` registers. -/
inductive Builtin
  | auto | autoHq | optimal | branchAll | branch2 | branch1 | greedy | dynamicProgramming | randomGreedy | randomGreedy128
  deriving DecidableEq

/-- The function of a finder, with the defaults of its parameters (paths.py:513-515, 1331, 1350, 1309-1317; path_random.py:65-72, 327-334,
386-398). -/
def Builtin.fn (e : Env) : Builtin → PathFn
  | .auto => asPathFn fun size mem i o => Paths.auto e.orders e.fuel size mem i o
  | .autoHq => asPathFn fun size mem i o => Paths.autoHq e.cost e.pick e.orders e.fuel size mem i o
  | .optimal => asPathFn fun size mem i o => Paths.optimal e.fuel size mem e.orders.set i o
  | .branchAll => asPathFn fun size mem i o => branchN none e.orders e.fuel size mem i o
  | .branch2 => asPathFn fun size mem i o => branchN (some 2) e.orders e.fuel size mem i o
  | .branch1 => asPathFn fun size mem i o => branchN (some 1) e.orders e.fuel size mem i o
  | .greedy => asPathFn fun size mem i o => Paths.greedy e.fuel size mem costMemoryRemoved none e.orders.greedy e.orders.set i o
  | .dynamicProgramming => asPathFn fun size mem i o => dpCall ⟨.flops, .increase, false⟩ e.orders.pop size mem i o e.fuel
  | .randomGreedy => asPathFn fun size _ i o => Paths.randomGreedy 32 8 e.cost e.pick e.orders.greedy e.fuel size i o
  | .randomGreedy128 => asPathFn fun size _ i o => Paths.randomGreedy 128 8 e.cost e.pick e.orders.greedy e.fuel size i o

/-- `_PATH_OPTIONS` (paths.py:1365-1377) as a table of finders. -/
def pathOptions : Dict Str Builtin :=
  [(S "auto", .auto), (S "auto-hq", .autoHq), (S "optimal", .optimal), (S "branch-all", .branchAll), (S "branch-2", .branch2),
   (S "branch-1", .branch1), (S "greedy", .greedy), (S "eager", .greedy), (S "opportunistic", .greedy), (S "dp", .dynamicProgramming),
   (S "dynamic-programming", .dynamicProgramming)]

/-- The table after `import opt_einsum` (`opt_einsum/__init__.py:28-29`). -/
def importedOptions (lower : Str → Str) : Except PyErr (Dict Str Builtin) := do
  let o ← registerPathFn lower pathOptions (S "random-greedy") .randomGreedy
  registerPathFn lower o (S "random-greedy-128") .randomGreedy128

/-- The `optimize` argument of `contract` and `contract_path` as Python value; `optimizer` is a `PathOptimizer` instance, of which only the
answers to this call matter. -/
inductive OptimizeArg
  | bool (b : Bool)
  | none
  | name (s : Str)
  | path (p : List (List Nat))
  | optimizer (f : PathFn)

/-- `True` and `None` mean `"auto"` (contract.py:284-285, 577-578); a name is looked up when the path is needed (contract.py:343-357), so
only for three operands or more. -/
def resolve (lower : Str → Str) (options : Dict Str PathFn) : OptimizeArg → Optimize
  | .bool true => .finder fun s o d m => do (← getPathFn lower options (S "auto")) s o d m
  | .none => .finder fun s o d m => do (← getPathFn lower options (S "auto")) s o d m
  | .bool false => .off
  | .name n => .finder fun s o d m => do (← getPathFn lower options n) s o d m
  | .path p => .path p
  | .optimizer f => .finder f

end OE.Registry
