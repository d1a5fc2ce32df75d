import Verif.Py.Basic

/-!
# Model of `opt_einsum/paths.py`: `ssa_to_linear`, `linear_to_ssa`, `_tree_to_sequence`
-/

namespace OE.Paths
open OE OE.Py

/-- A contraction path: a list of tuples of positions or ids (non-negative). -/
abbrev Path := List (List Nat)

/-- `sum(map(len, path)) - len(path) + 1` (paths.py:100, 138). Python's value may be negative or zero when there are
empty tuples; the model truncates at zero there. -/
def numInputs (path : Path) : Nat := (path.map List.length).sum + 1 - path.length

/-- `bisect.bisect_left(ids, s)` of the standard library, on a sorted list: the number of smaller elements
(the list `ids` of `ssa_to_linear` is always sorted, see `ssaLoop_inv`). -/
def bisectLeft (ids : List Nat) (s : Nat) : Nat := (ids.takeWhile (fun x => x < s)).length

/-- The loop of `ssa_to_linear` (paths.py:104-110). `ids.pop(j)` past the end is an `IndexError`. -/
def ssaLoop : List Nat → Nat → Path → Except PyErr Path
  | _, _, [] => .ok []
  | ids, ssa, scon :: rest => do
    let con := sorted (scon.map (bisectLeft ids))
    let (_, ids') ← popAll con.reverse ids
    let path ← ssaLoop (ids' ++ [ssa]) (ssa + 1) rest
    .ok (con :: path)

/-- `ssa_to_linear` (paths.py:82-111). -/
def ssaToLinear (ssaPath : Path) : Except PyErr Path :=
  let n := numInputs ssaPath
  ssaLoop (List.range n) n ssaPath

/-- `linear_to_ssa[id_]` (paths.py:143): `IndexError` past the end. -/
def getId (ids : List Nat) (i : Nat) : Except PyErr Nat :=
  match ids[i]? with
  | some x => .ok x
  | none => .error .index

/-- The loop of `linear_to_ssa` (paths.py:142-146). -/
def linLoop : List Nat → Nat → Path → Except PyErr Path
  | _, _, [] => .ok []
  | ids, new, con :: rest => do
    let scon ← con.mapM (getId ids)
    let (_, ids') ← popAll (sortedDesc con) ids
    let path ← linLoop (ids' ++ [new]) (new + 1) rest
    .ok (scon :: path)

/-- `linear_to_ssa` (paths.py:128-147). -/
def linearToSsa (path : Path) : Except PyErr Path :=
  let n := numInputs path
  linLoop (List.range n) n path

/-- A contraction tree: an `int` or a tuple of trees (paths.py:779-782). -/
inductive Tree
  | leaf (i : Nat)
  | node (children : List Tree)

/-- `[i for i in j if type(i) == int]`. -/
def leavesOf : List Tree → List Nat
  | [] => []
  | .leaf i :: ts => i :: leavesOf ts
  | .node _ :: ts => leavesOf ts

/-- `[i for i in j if type(i) != int]`. -/
def nodesOf : List Tree → List (List Tree)
  | [] => []
  | .leaf _ :: ts => nodesOf ts
  | .node cs :: ts => cs :: nodesOf ts

/-- The loop over the integers of a node (paths.py:819-821): positions and the new list `t`. -/
def insertLeaves : List Nat → List Nat → List Nat × List Nat
  | t, [] => ([], t)
  | t, i :: is =>
    let pos := (t.filter (fun q => q < i)).length
    let r := insertLeaves (t.insertIdx pos i) is
    (pos :: r.1, r.2)

/-- The loop over the subtrees of a node (paths.py:823-825): positions and the new stack `c` (its top is the head of
the list here, the end of the list in Python). -/
def pushNodes (lenT : Nat) : List (List Tree) → List (List Tree) → List Nat × List (List Tree)
  | c, [] => ([], c)
  | c, j :: js =>
    let r := pushNodes lenT (j :: c) js
    ((lenT + c.length) :: r.1, r.2)

/-- The `while` loop of `_tree_to_sequence` (paths.py:815-825) with fuel; `none` if the fuel does not suffice. -/
def treeLoop : Nat → List (List Tree) → List Nat → Path → Option Path
  | _, [], _, s => some s
  | 0, _ :: _, _, _ => none
  | fuel + 1, j :: c, t, s =>
    let a := insertLeaves t (sorted (leavesOf j))
    let b := pushNodes a.2.length c (nodesOf j)
    treeLoop fuel b.2 a.2 ((a.1 ++ b.1) :: s)

/-- `_tree_to_sequence` (paths.py:777-827). -/
def treeToSequence (fuel : Nat) : Tree → Option Path
  | .leaf _ => some []
  | .node cs => treeLoop fuel [cs] [] []

end OE.Paths
