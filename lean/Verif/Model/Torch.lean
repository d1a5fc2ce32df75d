import Verif.Model.Contract

/-!
# The `tensordot` fallback of the torch backend (opt_einsum/backends/torch.py:41-97)

Used when torch has no `tensordot` of its own. `torch.einsum` is modelled by `npEinsum`.
-/

namespace OE.Torch
open OE OE.Py OE.Parser OE.Contract

/-- One of the two members of an `axes` pair: an `int` or a sequence of them. -/
inductive AxArg
  | one (i : Int)
  | many (l : List Int)

/-- The `axes` argument: an `int` or a pair. -/
inductive Axes
  | int (n : Int)
  | pair (x y : AxArg)

/-- `range(a, b)`. -/
def pyRange (a b : Int) : List Int := (List.range (b - a).toNat).map (fun i : Nat => a + (i : Int))

/-- A member of the pair as a list (torch.py:65-69). -/
def AxArg.toList : AxArg → List Int
  | .one i => [i]
  | .many l => l

/-- The two axes lists (torch.py:61-69). -/
def Axes.lists (xnd : Nat) : Axes → List Int × List Int
  | .int n => (pyRange (xnd - n) xnd, pyRange 0 n)
  | .pair x y => (x.toList, y.toList)

/-- `l[ax] = v` on a Python list: negative positions count from the end, `IndexError` outside. -/
def setItem {α : Type} (l : List α) (ax : Int) (v : α) : Except PyErr (List α) :=
  let i := if ax < 0 then ax + l.length else ax
  if 0 ≤ i ∧ i < l.length then .ok (l.set i.toNat v) else .error .index

/-- `next(available_ix)`: the `k`-th of the 52 letters, else `StopIteration`. -/
def nextSymbol (k : Nat) : Except PyErr Nat :=
  match einsumSymbolsBase[k]? with
  | some c => .ok c
  | none => .error .stopIteration

/-- The loop over the paired axes (torch.py:77-81); the position in `available_ix` is threaded through. -/
def fillPairs : Nat → List (Int × Int) → List (Option Nat) → List (Option Nat) →
    Except PyErr (Nat × List (Option Nat) × List (Option Nat))
  | k, [], x, y => .ok (k, x, y)
  | k, (ax1, ax2) :: ps, x, y => do
    let c ← nextSymbol k
    let x' ← setItem x ax1 (some c)
    let y' ← setItem y ax2 (some c)
    fillPairs (k + 1) ps x' y'

/-- The loop that fills in the remaining positions of one operand (torch.py:83-93): the filled string, the
symbols appended to `out_ix`, and the position in `available_ix`. -/
def fillRest : Nat → List (Option Nat) → Except PyErr (Str × Str × Nat)
  | k, [] => .ok ([], [], k)
  | k, some c :: l => do
    let (s, o, k') ← fillRest k l
    .ok (c :: s, o, k')
  | k, none :: l => do
    let c ← nextSymbol k
    let (s, o, k') ← fillRest (k + 1) l
    .ok (c :: s, c :: o, k')

/-- The einsum string of the fallback (torch.py:58-96). -/
def tensordotStr (xnd ynd : Nat) (axes : Axes) : Except PyErr Str := do
  let (xs, ys) := axes.lists xnd
  let (k, x, y) ← fillPairs 0 (xs.zip ys) (List.replicate xnd none) (List.replicate ynd none)
  let (sx, ox, k') ← fillRest k x
  let (sy, oy, _) ← fillRest k' y
  .ok (sx ++ [cComma] ++ sy ++ [cDash, cGt] ++ (ox ++ oy))

variable {R : Type} [CommSemiring R]

/-- `einsum` of the torch backend (torch.py:41-48): the symbols are always renamed. -/
def torchEinsum (equation : Str) (ops : List (Tensor R)) : Except PyErr (Tensor R) :=
  npEinsum (convertToValidEinsumChars equation) ops

/-- `tensordot` of the torch backend when torch itself has none (torch.py:51-97). -/
def torchTensordot (x y : Tensor R) (axes : Axes) : Except PyErr (Tensor R) := do
  let s ← tensordotStr x.shape.length y.shape.length axes
  torchEinsum s [x, y]

end OE.Torch
