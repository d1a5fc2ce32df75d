import Verif.Model.PathConv
import Mathlib.Algebra.BigOperators.Group.Finset.Basic
import Mathlib.Data.Finset.Union
import Mathlib.Order.WithBot

/-!
# Model of `opt_einsum/paths.py`: `calc_k12_flops`, `_compute_oversize_flops`, `optimal`

Simplifications, common to the path finders: every label has a size (`size : Nat → Nat`; a label missing in `size_dict`
is a `KeyError` in Python), the memory limit is a natural number or absent (`None`, `-1` and `inf` all mean absent,
paths.py:29), `float("inf")` is `⊤`.
-/

namespace OE.Paths
open OE OE.Py

/-- `compute_size_by_dict` (helpers.py:22-47) of a set of labels that all have a size. -/
def sizeOf (size : Nat → Nat) (s : Finset Nat) : Nat := ∏ c ∈ s, size c

/-- `flop_count` (helpers.py:106-144) of a set of labels that all have a size. -/
def flopsOf (size : Nat → Nat) (s : Finset Nat) (inner : Bool) (numTerms : Nat) : Nat :=
  let opFactor := max 1 (numTerms - 1)
  sizeOf size s * (if inner then opFactor + 1 else opFactor)

/-- `calc_k12_flops` (paths.py:150-183). `inputs[i]` is always in range here. -/
def calcK12 (size : Nat → Nat) (inputs : List (Finset Nat)) (output remaining : Finset Nat) (i j : Nat) : Finset Nat × Nat :=
  let k1 := inputs.getD i ∅
  let k2 := inputs.getD j ∅
  let either := k1 ∪ k2
  let shared := k1 ∩ k2
  let keep := output ∪ (remaining \ {i, j}).biUnion (fun k => inputs.getD k ∅)
  (either ∩ keep, flopsOf size either (decide (shared \ keep ≠ ∅)) 2)

/-- `_compute_oversize_flops` (paths.py:186-198). -/
def oversizeFlops (size : Nat → Nat) (inputs : List (Finset Nat)) (remaining output : Finset Nat) : Nat :=
  let idx := remaining.biUnion (fun k => inputs.getD k ∅)
  flopsOf size idx (decide (idx \ output ≠ ∅)) remaining.card

/-- `itertools.combinations(l, 2)`. -/
def combinations2 : List Nat → List (Nat × Nat)
  | [] => []
  | x :: xs => xs.map (fun y => (x, y)) ++ combinations2 xs

/-- `if i > j: i, j = j, i`. -/
def orient (ij : Nat × Nat) : Nat × Nat := if ij.1 > ij.2 then (ij.2, ij.1) else ij

/-- `result_cache` (paths.py:234, 403). -/
abbrev ResCache := Dict (Finset Nat × Finset Nat) (Finset Nat × Nat)

/-- The `try … except KeyError` around `result_cache` (paths.py:247-252, 415-418): the value and the new cache. -/
def cached (cache : ResCache) (key : Finset Nat × Finset Nat) (value : Finset Nat × Nat) : (Finset Nat × Nat) × ResCache :=
  match cache.get? key with
  | some v => (v, cache)
  | none => (value, cache.set key value)

/-- The iteration order of the set `remaining` at a node of the search. The set object at a node is determined by the
contractions made so far, so the order may depend on them. -/
abbrev SetOrder := Path → Finset Nat → List Nat

/-- The variables that `_optimal_iterate` updates. `size_cache` is left out: it only memoises
`compute_size_by_dict` of its own key. -/
structure OptSt where
  bestFlops : WithTop Nat
  bestPath : Path
  cache : ResCache

/-- The arguments of one call of `_optimal_iterate` (or `_branch_iterate`, with `size`). -/
structure SearchNode where
  path : Path
  inputs : List (Finset Nat)
  remaining : Finset Nat
  flops : Nat

/-- `path + ((i, j),)`, `inputs + (k12,)`, `remaining - {i, j} | {len(inputs)}` (paths.py:274-279). -/
def SearchNode.child (nd : SearchNode) (i j : Nat) (k12 : Finset Nat) (flops : Nat) : SearchNode :=
  { path := nd.path ++ [[i, j]]
    inputs := nd.inputs ++ [k12]
    remaining := insert nd.inputs.length (nd.remaining \ {i, j})
    flops }

/-- The loop body of `_optimal_iterate` (paths.py:244-279); `recur` is the recursive call. -/
def optBody (size : Nat → Nat) (output : Finset Nat) (mem : Option Nat) (order : SetOrder)
    (recur : SearchNode → OptSt → Option OptSt) (nd : SearchNode) (st : OptSt) (ij0 : Nat × Nat) : Option OptSt :=
  let ij := orient ij0
  let r := cached st.cache (nd.inputs.getD ij.1 ∅, nd.inputs.getD ij.2 ∅) (calcK12 size nd.inputs output nd.remaining ij.1 ij.2)
  let st := { st with cache := r.2 }
  let newFlops := nd.flops + r.1.2
  if (newFlops : WithTop Nat) < st.bestFlops then
    match mem with
    | some m =>
      if sizeOf size r.1.1 > m then
        let newFlops := nd.flops + oversizeFlops size nd.inputs nd.remaining output
        if (newFlops : WithTop Nat) < st.bestFlops then
          some { st with bestFlops := newFlops, bestPath := nd.path ++ [order nd.path nd.remaining] }
        else some st
      else recur (nd.child ij.1 ij.2 r.1.1 newFlops) st
    | none => recur (nd.child ij.1 ij.2 r.1.1 newFlops) st
  else some st

/-- `_optimal_iterate` (paths.py:236-279), with fuel for the depth of the recursion; `none` if it does not suffice. -/
def optIter (size : Nat → Nat) (output : Finset Nat) (mem : Option Nat) (order : SetOrder) :
    Nat → SearchNode → OptSt → Option OptSt
  | fuel, nd, st =>
    if nd.remaining.card = 1 then some { st with bestFlops := nd.flops, bestPath := nd.path }
    else match fuel with
      | 0 => none
      | fuel + 1 => (combinations2 (order nd.path nd.remaining)).foldlM (optBody size output mem order (optIter size output mem order fuel) nd) st

/-- The first call of the recursion (paths.py:281, 492). -/
def rootNode (inputs : List (Finset Nat)) : SearchNode :=
  { path := [], inputs, remaining := Finset.range inputs.length, flops := 0 }

/-- `optimal` (paths.py:201-283) up to the conversion of the path. -/
def optimalSsa (fuel : Nat) (size : Nat → Nat) (mem : Option Nat) (order : SetOrder) (inputs : List (Finset Nat))
    (output : Finset Nat) : Option OptSt :=
  optIter size output mem order fuel (rootNode inputs) { bestFlops := ⊤, bestPath := [List.range inputs.length], cache := [] }

/-- `optimal` (paths.py:201-283). -/
def optimal (fuel : Nat) (size : Nat → Nat) (mem : Option Nat) (order : SetOrder) (inputs : List (Finset Nat))
    (output : Finset Nat) : Option (Except PyErr Path) :=
  (optimalSsa fuel size mem order inputs output).map (fun st => ssaToLinear st.bestPath)

end OE.Paths
