import Verif.Model.Expression

/-!
# The `out` argument (opt_einsum/contract.py:584, 642-711, 846-848; opt_einsum/sharing.py:156-183)

`contract(..., out=o)` and `expr(..., out=o)`. The array `o` is its contents before the call; the outcome says whether the returned object is
`o` itself, the contents of the returned object, and the contents of `o` afterwards.

Simplifications:
* `sharing` says whether the calling thread is inside `shared_intermediates`. The values computed by the single steps do not depend on it
  (C42); what depends on it here is that the memoizing wrapper of `einsum` does not pass `out` on.
* An assignment to `o` demands equal shapes; numpy would also broadcast. Data types are not modelled, so no conversion can fail.
* `o` is not one of the operands.
-/

namespace OE.Out
open OE OE.Py OE.Contract OE.Parser OE.Expression

variable {R : Type} [CommSemiring R]

/-- What a call with `out=o` comes to. -/
structure Outcome (R : Type) where
  /-- the returned object is `o` -/
  isOut : Bool
  /-- contents of the returned object -/
  value : Tensor R
  /-- contents of `o` -/
  out : Tensor R

/-- `fn(einsum_str, *operands, out=o)`: fills `o` (contract.py:451). -/
def einsumInto (noEinsum : Bool) (einsumStr : Str) (ops : List (Tensor R)) (o : Tensor R) : Except PyErr (Tensor R) := do
  let view ← einsumCall noEinsum einsumStr ops
  if view.shape = o.shape then .ok view else .error .value

/-- `out[:] = new_view` (contract.py:695): a 0-dimensional array cannot be sliced. -/
def assignSlice (view o : Tensor R) : Except PyErr (Tensor R) :=
  if o.shape = [] then .error .index
  else if view.shape = o.shape then .ok view
  else .error .value

/-- The `tensordot` branch of the last step with `out` (contract.py:666-695): always transposed. -/
def blasView (step : Step) (tmp : List (Tensor R)) : Except PyErr (Tensor R) :=
  match splitArrow step.einsumStr with
  | [inp, resultsIndex] =>
    match splitOn cComma inp with
    | [left, right] =>
      match tmp with
      | [a, b] => do
        let tensorResult := (left ++ right).filter (fun c => c ∉ step.removed)
        let axes := blasAxes left right step.removed
        let view ← npTensordot a b axes.1 axes.2
        let perm ← transposeAxes tensorResult resultsIndex
        npTranspose view perm
      | _ => .error .type
    | _ => .error .value
  | _ => .error .value

/-- The last step with `out` (contract.py:662-702): the contents of `o` afterwards. -/
def lastStep (noEinsum sharing : Bool) (step : Step) (tmp : List (Tensor R)) (o : Tensor R) : Except PyErr (Tensor R) :=
  if usesBlas noEinsum step.blas then do assignSlice (← blasView step tmp) o
  else if sharing then do
    let _ ← einsumCall noEinsum step.einsumStr tmp
    .ok o
  else einsumInto noEinsum step.einsumStr tmp o

/-- `_core_contract(..., out=o)` (contract.py:631-711): the contents of `o`, which is returned. -/
def coreOut (noEinsum sharing : Bool) : List Step → List (Tensor R) → Tensor R → Except PyErr (Tensor R)
  | [], _, o => .ok o
  | [s], ops, o => do
    let (tmp, _) ← popAll s.inds ops
    lastStep noEinsum sharing s tmp o
  | s :: s' :: ss, ops, o => do
    let (tmp, rest) ← popAll s.inds ops
    let view ← stepResult noEinsum s tmp
    coreOut noEinsum sharing (s' :: ss) (rest ++ [view]) o

/-- `contract(subscripts, *ops, out=o, ...)` (contract.py:577-603). -/
def contractOut (noEinsum sharing : Bool) (subscripts : Str) (ops : List (Tensor R)) (opt : Optimize) (mem : MemLimit) (useBlas : Bool)
    (o : Tensor R) : Except PyErr (Outcome R) :=
  match opt with
  | .off =>
    if sharing then do
      let view ← einsumCall false subscripts ops
      .ok { isOut := false, value := view, out := o }
    else do
      let o' ← einsumInto false subscripts ops o
      .ok { isOut := true, value := o', out := o' }
  | _ => do
    let (inp, out) ← parseEinsum subscripts (ops.map Tensor.shape)
    let info ← contractPath (splitOn cComma inp) out (ops.map Tensor.shape) opt mem useBlas
    let o' ← coreOut noEinsum sharing info.contractionList ops o
    .ok { isOut := true, value := o', out := o' }

/-- `out[()] = result` (contract.py:847). -/
def assignAll (view o : Tensor R) : Except PyErr (Tensor R) := if view.shape = o.shape then .ok view else .error .value

/-- The end of `__call__` with `out` (contract.py:846-848, 889-895). -/
def finishOut (L : Lib) (e : Expr R) (sharing : Bool) (b : Str) (arrays : List (Arr R)) (ops : List (Tensor R)) (o : Tensor R) :
    Except PyErr (Tensor R) :=
  if hasBackend b ∧ ∀ a ∈ arrays, a.module = S "numpy" then
    if b ∈ convertBackends then do
      let he ← L.hasEinsum b
      assignAll (← coreContract (!he) e.list ops) o
    else .error .key
  else do
    let he ← L.hasEinsum b
    coreOut (!he) sharing e.list ops o

/-- `expr(*arrays, out=o, backend=...)` (contract.py:852-895): the contents of `o`, which is returned. -/
def callOut (L : Lib) (e : Expr R) (sharing : Bool) (arrays : List (Arr R)) (backend : Option Str) (o : Tensor R) :
    Except PyErr (Tensor R) × Expr R :=
  match parseBackend L (arrays.map Arr.module) backend with
  | .error er => (.error er, e)
  | .ok b =>
    if arrays.length ≠ e.numArgs then (.error .value, e)
    else if e.constants = [] then (finishOut L e sharing b arrays (arrays.map Arr.tensor) o, e)
    else match e.evaluated.get? b with
      | some ops => (do finishOut L e sharing b arrays (← fill ops (arrays.map Arr.tensor)) o, e)
      | none => match evaluateConstants L e (some b) with
        | (.error er, e') => (.error er, e')
        | (.ok _, e') => match e'.evaluated.get? b with
          | none => (.error .key, e')
          | some ops => (do finishOut L e' sharing b arrays (← fill ops (arrays.map Arr.tensor)) o, e')

end OE.Out
