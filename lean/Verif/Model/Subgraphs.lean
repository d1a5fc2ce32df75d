import Verif.Model.Search

/-!
# Model of `opt_einsum/paths.py`: `_find_disconnected_subgraphs`, the registry of path functions
-/

namespace OE.Paths
open OE OE.Py

/-- `unused_inputs.pop()` and the order in which `q.extend(n)` lists a set. -/
structure PopOrder where
  pop : Finset Nat → Nat
  list : SetOrder

/-- The inner loop (paths.py:859-865): the subgraph `g`, the stack `q` (its end first), the unused inputs. -/
def subgraphLoop (order : PopOrder) (iSum : Finset Nat) (inputs : List (Finset Nat)) :
    Nat → Finset Nat → List Nat → Finset Nat → Option (Finset Nat × Finset Nat)
  | _, g, [], unused => some (g, unused)
  | 0, _, _ :: _, _ => none
  | fuel + 1, g, j :: q, unused =>
    let iTmp := iSum ∩ inputs.getD j ∅
    let n := unused.filter (fun k => 0 < (iTmp ∩ inputs.getD k ∅).card)
    subgraphLoop order iSum inputs fuel (insert j g) ((order.list [] n).reverse ++ q) (unused \ n)

/-- The outer loop (paths.py:856-867). -/
def subgraphsLoop (order : PopOrder) (iSum : Finset Nat) (inputs : List (Finset Nat)) : Nat → List (Finset Nat) → Finset Nat → Option (List (Finset Nat))
  | fuel, subgraphs, unused =>
    if unused = ∅ then some subgraphs
    else match fuel with
      | 0 => none
      | fuel + 1 =>
        let i := order.pop unused
        match subgraphLoop order iSum inputs inputs.length ∅ [i] (unused.erase i) with
        | none => none
        | some (g, unused) => subgraphsLoop order iSum inputs fuel (subgraphs ++ [g]) unused

/-- `_find_disconnected_subgraphs` (paths.py:830-869). `frozenset.union()` of no sets is a `TypeError`. -/
def findDisconnectedSubgraphs (order : PopOrder) (inputs : List (Finset Nat)) (output : Finset Nat) : Option (Except PyErr (List (Finset Nat))) :=
  if inputs = [] then some (.error .type)
  else
    let iSum := inputs.foldr (· ∪ ·) ∅ \ output
    (subgraphsLoop order iSum inputs inputs.length [] (Finset.range inputs.length)).map Except.ok

/-- `register_path_fn` (paths.py:1380-1385) on `_PATH_OPTIONS`; `lower` is `str.lower`. -/
def registerPathFn {φ : Type} (lower : Str → Str) (options : Dict Str φ) (name : Str) (fn : φ) : Except PyErr (Dict Str φ) :=
  if options.has name then .error .key else .ok (options.set (lower name) fn)

/-- `get_path_fn` (paths.py:1388-1394). -/
def getPathFn {φ : Type} (lower : Str → Str) (options : Dict Str φ) (name : Str) : Except PyErr φ :=
  if options.has (lower name) then options.get! (lower name) else .error .key

end OE.Paths
