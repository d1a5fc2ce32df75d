import Verif.Model.Random
import Verif.Model.Dp

/-!
# Model of `opt_einsum/paths.py`: `auto`, `auto_hq`, and of `path_random.py`: `random_greedy`
-/

namespace OE.Paths
open OE OE.Py

/-- The iteration orders of the sets of a process. -/
structure Orders where
  set : SetOrder
  greedy : GOrder
  pop : PopOrder

/-- `branch_all`, `branch_2`, `branch_1` (paths.py:513-515) with the defaults of `branch` (paths.py:497-510). -/
def branchN (nbranch : Option Nat) (orders : Orders) (fuel : Nat) (size : Nat → Nat) (mem : Option Nat) (inputs : List (Finset Nat))
    (output : Finset Nat) : Option (Except PyErr Path) :=
  branch { nbranch, cutoff := 4, bySize := false, cost := costMemoryRemoved } fuel size mem orders.set inputs output

/-- `auto` (paths.py:1320-1340): the entries of `_AUTO_CHOICES`, `greedy` for all other numbers of inputs. -/
def auto (orders : Orders) (fuel : Nat) (size : Nat → Nat) (mem : Option Nat) (inputs : List (Finset Nat)) (output : Finset Nat) :
    Option (Except PyErr Path) :=
  let n := inputs.length
  if 1 ≤ n ∧ n < 5 then optimal fuel size mem orders.set inputs output
  else if 5 ≤ n ∧ n < 7 then branchN none orders fuel size mem inputs output
  else if 7 ≤ n ∧ n < 9 then branchN (some 2) orders fuel size mem inputs output
  else if 9 ≤ n ∧ n < 15 then branchN (some 1) orders fuel size mem inputs output
  else greedy fuel size mem costMemoryRemoved none orders.greedy orders.set inputs output

/-- `random_greedy` (path_random.py:386-395): a new `RandomGreedy`, called once, without executor and time limit. `cost r` is the cost
function with the random numbers of trial `r`, `pick r` its random choices. The memory limit is ignored by the code. -/
def randomGreedy (maxRepeats nbranch : Nat) (cost : Nat → CostFn) (pick : Nat → Path → List ℚ → Nat) (order : GOrder) (fuel : Nat)
    (size : Nat → Nat) (inputs : List (Finset Nat)) (output : Finset Nat) : Option (Except PyErr Path) :=
  match (List.range maxRepeats).mapM (trialGreedy fuel size cost (randomGreedyChooser nbranch pick) order inputs output) with
  | none => none
  | some ts => some (roCall false maxRepeats none (fun _ => false) (fun r => ts.getD r (.error .index)) ROSt.fresh).1

/-- `auto_hq` (paths.py:1343-1362): `optimal`, `dynamic_programming` with its defaults (paths.py:1309-1317, 1143), `random_greedy_128`
(path_random.py:398) with the defaults of `RandomGreedy`. -/
def autoHq (cost : Nat → CostFn) (pick : Nat → Path → List ℚ → Nat) (orders : Orders) (fuel : Nat) (size : Nat → Nat) (mem : Option Nat)
    (inputs : List (Finset Nat)) (output : Finset Nat) : Option (Except PyErr Path) :=
  let n := inputs.length
  if 1 ≤ n ∧ n < 6 then optimal fuel size mem orders.set inputs output
  else if 6 ≤ n ∧ n < 17 then dpCall ⟨.flops, .increase, false⟩ orders.pop size mem inputs output fuel
  else randomGreedy 128 8 cost pick orders.greedy fuel size inputs output

end OE.Paths
