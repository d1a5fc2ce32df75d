import Verif.Model.Tensor
import Verif.Model.Helpers
import Mathlib.Data.Rat.Floor

/-!
# Model of `opt_einsum/contract.py`: `contract_path`, `_core_contract`, `contract`

Path positions are non-negative integers (Python would also accept negative ones). Keyword arguments other
than `optimize`, `memory_limit`, `use_blas`, `out` are not modelled here.
-/

namespace OE.Contract
open OE OE.Py OE.Parser OE.Helpers OE.Blas

/-- The values of the `memory_limit` argument: numbers are rationals (covers `int` and finite `float`). -/
inductive MemLimit
  | none
  | maxInput
  | otherStr
  | num (q : ℚ)

/-- `_choose_memory_arg` (contract.py:102-118). `max` of an empty list is a `ValueError`. -/
def chooseMemoryArg (m : MemLimit) (sizeList : List Nat) : Except PyErr (Option Nat) :=
  match m with
  | .maxInput => match sizeList.max? with
    | some v => .ok (some v)
    | .none => .error .value
  | .otherStr => .error .value
  | .none => .ok Option.none
  | .num q =>
    if q < 1 then
      if q = -1 then .ok Option.none else .error .value
    else .ok (some q.floor.toNat)

/-- The inner loop over `enumerate(term)` (contract.py:316-329) for one operand. `sh[cnum]` cannot fail
because the lengths were compared before. -/
def sizeTerm (sizeDict : Dict Nat Nat) : List (Nat × Nat) → Except PyErr (Dict Nat Nat)
  | [] => .ok sizeDict
  | (char, dim) :: rest =>
    match sizeDict.get? char with
    | some old =>
      if old = 1 then sizeTerm (sizeDict.set char dim) rest
      else if dim ≠ 1 ∧ dim ≠ old then .error .value
      else sizeTerm sizeDict rest
    | none => sizeTerm (sizeDict.set char dim) rest

/-- The loop building `size_dict` (contract.py:306-329). `input_shapes[tnum]` past the end is an
`IndexError`. -/
def sizeLoop (sizeDict : Dict Nat Nat) : List Str → List Shape → Except PyErr (Dict Nat Nat)
  | [], _ => .ok sizeDict
  | _ :: _, [] => .error .index
  | term :: terms, sh :: shs =>
    if sh.length ≠ term.length then .error .value
    else do
      let d ← sizeTerm sizeDict (term.zip sh)
      sizeLoop d terms shs

/-- One entry of the contraction list (contract.py:408). -/
structure Step where
  inds : List Nat
  removed : Finset Nat
  einsumStr : Str
  remaining : Option (List Str)
  blas : Flag
  deriving DecidableEq

/-- The variables that the loop of `contract_path` updates. -/
structure PathState where
  inputs : List Str
  sets : List (Finset Nat)
  shapes : List Shape

/-- One contraction with the figures recorded for it. -/
structure StepOut where
  step : Step
  cost : Nat
  scale : Nat
  size : Nat

/-- The distinct characters of `s` in the order of their first occurrence. -/
def firstOccs : Str → Str
  | [] => []
  | c :: s => c :: (firstOccs s).filter (fun x => x ≠ c)

/-- `"".join(sorted(out_inds, key=all_input_inds.find))` (contract.py:390-392). All of `out_inds` occur in
`all_input_inds`, so sorting by `find` lists them by first occurrence, whatever the iteration order of the
set (proved in `tensordotOrder_eq_sorted`). -/
def tensordotOrder (allInputInds : Str) (outInds : Finset Nat) : Str :=
  (firstOccs allInputInds).filter (fun c => c ∈ outInds)

/-- An arbitrary enumeration of a `frozenset`, for order-insensitive uses only (products of sizes,
membership): the elements of `order` that belong to the set. -/
def enum (order : List Nat) (s : Finset Nat) : List Nat := (firstOccs order).filter (fun c => c ∈ s)

/-- The separator pieces of an einsum string: `",".join(tmp_inputs) + "->" + idx_result`. -/
def einsumStrOf (tmpInputs : List Str) (idxResult : Str) : Str := join [cComma] tmpInputs ++ [cDash, cGt] ++ idxResult

/-- One iteration of the path loop (contract.py:365-409). -/
def pathStep (useBlas : Bool) (output : Str) (sizeDict : Dict Nat Nat) (st : PathState) (positions : List Nat)
    (isLast : Bool) : Except PyErr (PathState × StepOut) := do
  let inds := sortedDesc positions
  let c ← findContraction inds st.sets output.toFinset
  let (tmpInputs, inputs') ← popAll inds st.inputs
  let (tmpShapes, shapes') ← popAll inds st.shapes
  let allInds := tmpInputs.flatten
  let cost ← flopCount (enum allInds c.idxContract) (decide (c.idxRemoved ≠ ∅)) inds.length sizeDict
  let size ← computeSizeByDict (enum allInds c.newResult) sizeDict
  let doBlas := if useBlas then canBlas tmpInputs (enum allInds c.newResult) c.idxRemoved (some tmpShapes) else Flag.no
  let idxResult := if isLast then output else tensordotOrder allInds c.newResult
  let shpResult ← findOutputShape tmpInputs tmpShapes idxResult
  let inputs'' := inputs' ++ [idxResult]
  let remaining := if inputs''.length ≤ 20 then some inputs'' else none
  .ok ({ inputs := inputs'', sets := c.remaining, shapes := shapes' ++ [shpResult] },
       { step := { inds, removed := c.idxRemoved, einsumStr := einsumStrOf tmpInputs idxResult, remaining, blas := doBlas },
         cost, scale := c.idxContract.card, size })

/-- The path loop (contract.py:359-411); the step is the last one when no other follows. -/
def pathLoop (useBlas : Bool) (output : Str) (sizeDict : Dict Nat Nat) :
    PathState → List (List Nat) → Except PyErr (PathState × List StepOut)
  | st, [] => .ok (st, [])
  | st, p :: ps => do
    let (st', o) ← pathStep useBlas output sizeDict st p ps.isEmpty
    let (st'', os) ← pathLoop useBlas output sizeDict st' ps
    .ok (st'', o :: os)

/-- A path finder: `path_fn(input_sets, output_set, size_dict, memory_arg)`. -/
abbrev PathFn := List (Finset Nat) → Finset Nat → Dict Nat Nat → Option Nat → Except PyErr (List (List Nat))

/-- The `optimize` argument: `False`, an explicit path, or a path finder (a `PathOptimizer` instance or the
function registered under a name). -/
inductive Optimize
  | off
  | path (p : List (List Nat))
  | finder (f : PathFn)

/-- The choice of the path (contract.py:343-357). -/
def choosePath (opt : Optimize) (numOps : Nat) (sets : List (Finset Nat)) (output : Finset Nat) (sizeDict : Dict Nat Nat)
    (mem : Option Nat) : Except PyErr (List (List Nat)) :=
  match opt with
  | .off => .ok [List.range numOps]
  | .path p => .ok p
  | .finder f => if numOps ≤ 2 then .ok [List.range numOps] else f sets output sizeDict mem

/-- `PathInfo` (contract.py:32-62), the numeric fields. -/
structure PathInfo where
  contractionList : List Step
  path : List (List Nat)
  indices : Finset Nat
  scaleList : List Nat
  naiveCost : Nat
  optCost : Nat
  sizeList : List Nat
  sizeDict : Dict Nat Nat
  largestIntermediate : Nat

/-- `contract_path` (contract.py:293-429) after parsing: terms, output and shapes to the path information
(the contraction list is `einsum_call=True`'s result). -/
def contractPath (inputs : List Str) (output : Str) (shapes : List Shape) (opt : Optimize) (mem : MemLimit)
    (useBlas : Bool) : Except PyErr PathInfo := do
  let sets := inputs.map List.toFinset
  let indices := inputs.flatten.toFinset
  let sizeDict ← sizeLoop [] inputs shapes
  let sizeList0 ← (inputs ++ [output]).mapM (fun t => computeSizeByDict t sizeDict)
  let memArg ← chooseMemoryArg mem sizeList0
  let inner : Bool := decide (0 < (sets.map Finset.card).sum - indices.card)
  let naive ← flopCount (enum inputs.flatten indices) inner inputs.length sizeDict
  let path ← choosePath opt inputs.length sets output.toFinset sizeDict memArg
  let (_, outs) ← pathLoop useBlas output sizeDict { inputs, sets, shapes } path
  .ok { contractionList := outs.map StepOut.step, path, indices, scaleList := outs.map StepOut.scale,
        naiveCost := naive, optCost := (outs.map StepOut.cost).sum, sizeList := outs.map StepOut.size, sizeDict,
        largestIntermediate := (outs.map StepOut.size).max?.getD 1 }

variable {R : Type} [CommSemiring R]

/-- `_einsum` (contract.py:432-451) outside a sharing context, for an explicit string. A backend without
`einsum` makes `get_func` raise `AttributeError`. -/
def einsumCall (noEinsum : Bool) (einsumStr : Str) (ops : List (Tensor R)) : Except PyErr (Tensor R) :=
  if noEinsum then .error .attribute
  else
    let s := if hasValidEinsumCharsOnly einsumStr then einsumStr
      else
        let s' := if countArrow einsumStr = 0 then einsumStr ++ [cDash, cGt] ++ findOutputStr einsumStr else einsumStr
        convertToValidEinsumChars s'
    npEinsum s ops

/-- The axes handed to `tensordot` (contract.py:673-684): the removed labels paired by position, in
increasing order of the left position. `sorted(zip(left_pos, right_pos))` does not depend on the iteration
order of `idx_rm` (proved in `blasAxes_eq_sorted`). -/
def blasAxes (left right : Str) (removed : Finset Nat) : List Nat × List Nat :=
  let ls := left.filter (fun c => c ∈ removed)
  (ls.map (fun c => left.idxOf c), ls.map (fun c => right.idxOf c))

/-- `tuple(map(tensor_result.index, results_index))` (contract.py:691): `ValueError` for a missing label. -/
def transposeAxes (tensorResult resultsIndex : Str) : Except PyErr (List Nat) :=
  resultsIndex.mapM (fun c => if c ∈ tensorResult then .ok (tensorResult.idxOf c) else .error .value)

/-- One step of `_core_contract` done with `tensordot` (contract.py:666-692), no `out`. Unpacking other than
two pieces is a `ValueError`; other than two operands would be a `TypeError`. -/
def blasStep (step : Step) (tmp : List (Tensor R)) : Except PyErr (Tensor R) :=
  match splitArrow step.einsumStr with
  | [inp, resultsIndex] =>
    match splitOn cComma inp with
    | [left, right] =>
      match tmp with
      | [a, b] => do
        let tensorResult := (left ++ right).filter (fun c => c ∉ step.removed)
        let axes := blasAxes left right step.removed
        let view ← npTensordot a b axes.1 axes.2
        if tensorResult ≠ resultsIndex then do
          let perm ← transposeAxes tensorResult resultsIndex
          npTranspose view perm
        else .ok view
      | _ => .error .type
    | _ => .error .value
  | _ => .error .value

/-- Does `_core_contract` perform this step with `tensordot`? (contract.py:666) -/
def usesBlas (noEinsum : Bool) (f : Flag) : Bool := f.truthy && (!f.hasEinsum || noEinsum)

/-- The new operand of one step of `_core_contract` (contract.py:665-702), no `out`. -/
def stepResult (noEinsum : Bool) (step : Step) (tmp : List (Tensor R)) : Except PyErr (Tensor R) :=
  if usesBlas noEinsum step.blas then blasStep step tmp else einsumCall noEinsum step.einsumStr tmp

/-- The loop of `_core_contract` (contract.py:651-706). -/
def coreLoop (noEinsum : Bool) : List Step → List (Tensor R) → Except PyErr (List (Tensor R))
  | [], ops => .ok ops
  | s :: ss, ops => do
    let (tmp, rest) ← popAll s.inds ops
    let view ← stepResult noEinsum s tmp
    coreLoop noEinsum ss (rest ++ [view])

/-- `_core_contract` (contract.py:631-711) without `out`, `evaluate_constants=False`. -/
def coreContract (noEinsum : Bool) (steps : List Step) (ops : List (Tensor R)) : Except PyErr (Tensor R) := do
  let ops' ← coreLoop noEinsum steps ops
  match ops' with
  | a :: _ => .ok a
  | [] => .error .index

/-- `contract(subscripts, *ops, optimize=..., memory_limit=..., use_blas=...)` (contract.py:502-603) for string
subscripts; `noEinsum` says whether the backend lacks `einsum`. With `optimize=False` the argument `backend` is not passed on
(contract.py:583-584): the call goes to `numpy`. -/
def contract (noEinsum : Bool) (subscripts : Str) (ops : List (Tensor R)) (opt : Optimize) (mem : MemLimit)
    (useBlas : Bool) : Except PyErr (Tensor R) :=
  match opt with
  | .off => einsumCall false subscripts ops
  | _ => do
    let (inp, out) ← parseEinsum subscripts (ops.map Tensor.shape)
    let info ← contractPath (splitOn cComma inp) out (ops.map Tensor.shape) opt mem useBlas
    coreContract noEinsum info.contractionList ops

end OE.Contract
