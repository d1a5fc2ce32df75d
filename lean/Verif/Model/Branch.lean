import Verif.Model.Search
import Mathlib.Data.Rat.Defs
import Mathlib.Algebra.Order.Ring.Rat

/-!
# Model of `opt_einsum/paths.py`: `BranchBound`, `branch`, `_check_args_against_first_call`
-/

namespace OE.Paths
open OE OE.Py

/-- A cost function `cost_fn(size12, size1, size2, k12, k1, k2)`. The first argument stands for the state of the random
generator (`cost_memory_removed_jitter`): the path including the assessed pair. Values are rational numbers (Python: integers
or finite floats). -/
abbrev CostFn := Path → Nat → Nat → Nat → Finset Nat → Finset Nat → Finset Nat → ℚ

/-- `cost_memory_removed` (paths.py:310-314). -/
def costMemoryRemoved : CostFn := fun _ size12 size1 size2 _ _ _ => (size12 : ℚ) - size1 - size2

/-- The options of `BranchBound` (paths.py:330-366), `bySize` is `minimize == "size"`. `nbranch < 1` is a `ValueError`
in the constructor. -/
structure BBCfg where
  nbranch : Option Nat
  cutoff : ℚ
  bySize : Bool
  cost : CostFn

/-- `better_flops_first` and `better_size_first` (paths.py:289-294): comparison of tuples. -/
def better (bySize : Bool) (flops size bestFlops bestSize : WithTop Nat) : Bool :=
  if bySize then decide (size < bestSize ∨ (size = bestSize ∧ flops < bestFlops))
  else decide (flops < bestFlops ∨ (flops = bestFlops ∧ size < bestSize))

/-- `self.best`, `self.best_progress` (a missing key is infinity) and `result_cache` of the running call. `size_cache` is left
out: it memoises `compute_size_by_dict`, and holds every term that is looked up. -/
structure BBSt where
  flops : WithTop Nat
  size : WithTop Nat
  path : Option Path
  progress : Dict Nat Nat
  cache : ResCache

/-- A candidate tuple `(cost, flops12, new_flops, new_size, (i, j), k12)` (paths.py:452). -/
structure Cand where
  cost : ℚ
  flops12 : Nat
  newFlops : Nat
  newSize : Nat
  i : Nat
  j : Nat
  k12 : Finset Nat

/-- Tuple comparison of candidates; their pairs `(i, j)` are distinct, so `k12` is never compared. -/
def Cand.le (a b : Cand) : Bool :=
  if a.cost ≠ b.cost then a.cost < b.cost
  else if a.flops12 ≠ b.flops12 then a.flops12 < b.flops12
  else if a.newFlops ≠ b.newFlops then a.newFlops < b.newFlops
  else if a.newSize ≠ b.newSize then a.newSize < b.newSize
  else if a.i ≠ b.i then a.i < b.i
  else a.j ≤ b.j

/-- The comparison with `best_progress` (paths.py:432-437): the new progress if the candidate survives. -/
def progressStep (cutoff : ℚ) (progress : Dict Nat Nat) (depth newFlops : Nat) : Option (Dict Nat Nat) :=
  match progress.get? depth with
  | none => some (progress.set depth newFlops)
  | some b =>
    if newFlops < b then some (progress.set depth newFlops)
    else if (newFlops : ℚ) > cutoff * b then none
    else some progress

/-- The sieve by memory limit and the cost of the candidate (paths.py:440-452). -/
def assessFit (size : Nat → Nat) (output : Finset Nat) (mem : Option Nat) (order : SetOrder) (nd : SearchNode)
    (st : BBSt) (c : Cand) : Option Cand × BBSt :=
  if mem.any (fun m => decide (sizeOf size c.k12 > m)) then
    let newFlops := nd.flops + oversizeFlops size nd.inputs nd.remaining output
    if (newFlops : WithTop Nat) < st.flops then
      (none, { st with flops := newFlops, path := some (nd.path ++ [order nd.path nd.remaining]) })
    else (none, st)
  else (some c, st)

/-- `_assess_candidate` (paths.py:413-452). -/
def assess (cfg : BBCfg) (size : Nat → Nat) (output : Finset Nat) (mem : Option Nat) (order : SetOrder) (nd : SearchNode) (sz : Nat)
    (st : BBSt) (ij : Nat × Nat) : Option Cand × BBSt :=
  let k1 := nd.inputs.getD ij.1 ∅
  let k2 := nd.inputs.getD ij.2 ∅
  let r := cached st.cache (k1, k2) (calcK12 size nd.inputs output nd.remaining ij.1 ij.2)
  let st := { st with cache := r.2 }
  let newFlops := nd.flops + r.1.2
  let newSize := max sz (sizeOf size r.1.1)
  if better cfg.bySize newFlops newSize st.flops st.size then
    match progressStep cfg.cutoff st.progress nd.inputs.length newFlops with
    | none => (none, st)
    | some progress =>
      assessFit size output mem order nd { st with progress }
        { cost := cfg.cost (nd.path ++ [[ij.1, ij.2]]) (sizeOf size r.1.1) (sizeOf size k1) (sizeOf size k2) r.1.1 k1 k2
          flops12 := r.1.2, newFlops, newSize, i := ij.1, j := ij.2, k12 := r.1.1 }
  else (none, st)

/-- One iteration of the loops over pairs (paths.py:456-467, 471-477). -/
def assessStep (cfg : BBCfg) (size : Nat → Nat) (output : Finset Nat) (mem : Option Nat) (order : SetOrder) (nd : SearchNode) (sz : Nat)
    (acc : List Cand × BBSt) (ij : Nat × Nat) : List Cand × BBSt :=
  let r := assess cfg size output mem order nd sz acc.2 ij
  (acc.1 ++ r.1.toList, r.2)

/-- The candidates (paths.py:454-477): overlapping pairs first, all pairs if that leaves nothing. -/
def candidates (cfg : BBCfg) (size : Nat → Nat) (output : Finset Nat) (mem : Option Nat) (order : SetOrder) (nd : SearchNode) (sz : Nat)
    (st : BBSt) : List Cand × BBSt :=
  let pairs := (combinations2 (order nd.path nd.remaining)).map orient
  let first := (pairs.filter (fun ij => ¬ Disjoint (nd.inputs.getD ij.1 ∅) (nd.inputs.getD ij.2 ∅))).foldl
    (assessStep cfg size output mem order nd sz) ([], st)
  if first.1 = [] then pairs.foldl (assessStep cfg size output mem order nd sz) first else first

/-- The candidates that the loop with `heappop` (paths.py:480-490) visits: the `nbranch` smallest, in increasing order. -/
def visited (nbranch : Option Nat) (cands : List Cand) : List Cand :=
  let l := cands.insertionSort (fun a b => a.le b = true)
  match nbranch with
  | none => l
  | some k => l.take k

/-- `_branch_iterate` (paths.py:405-490), with fuel for the depth of the recursion. -/
def branchIter (cfg : BBCfg) (size : Nat → Nat) (output : Finset Nat) (mem : Option Nat) (order : SetOrder) :
    Nat → SearchNode → Nat → BBSt → Option BBSt
  | fuel, nd, sz, st =>
    if nd.remaining.card = 1 then some { st with size := sz, flops := nd.flops, path := some nd.path }
    else match fuel with
      | 0 => none
      | fuel + 1 =>
        let r := candidates cfg size output mem order nd sz st
        (visited cfg.nbranch r.1).foldlM (fun st c =>
          branchIter cfg size output mem order fuel (nd.child c.i c.j c.k12 c.newFlops) c.newSize st) r.2

/-- `_check_args_against_first_call` (paths.py:53-70) on any type of arguments: the arguments remembered afterwards. -/
def checkArgs {α : Type} [DecidableEq α] (first : Option α) (args : α) : Except PyErr (Option α) :=
  match first with
  | none => .ok (some args)
  | some a => if args ≠ a then .error .value else .ok (some a)

/-- `self.best` and `self.best_progress` of a new instance (paths.py:366-367). -/
def BBSt.fresh : BBSt := { flops := ⊤, size := ⊤, path := none, progress := [], cache := [] }

/-- `BranchBound.__call__` (paths.py:373-494) on an instance with state `st`, when the arguments are those of the first call:
the result and the new state. -/
def branchCall (cfg : BBCfg) (fuel : Nat) (size : Nat → Nat) (mem : Option Nat) (order : SetOrder) (inputs : List (Finset Nat))
    (output : Finset Nat) (st : BBSt) : Option (Except PyErr Path × BBSt) :=
  (branchIter cfg size output mem order fuel (rootNode inputs) 0 { st with cache := [] }).map (fun st =>
    (match st.path with
      | none => .error .key
      | some p => ssaToLinear p, st))

/-- `branch` (paths.py:497-510). -/
def branch (cfg : BBCfg) (fuel : Nat) (size : Nat → Nat) (mem : Option Nat) (order : SetOrder) (inputs : List (Finset Nat))
    (output : Finset Nat) : Option (Except PyErr Path) :=
  if cfg.nbranch = some 0 then some (.error .value)
  else (branchCall cfg fuel size mem order inputs output BBSt.fresh).map Prod.fst

end OE.Paths
