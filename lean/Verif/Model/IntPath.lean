import Verif.Model.Contract

/-!
# Explicit paths of arbitrary integers (contract.py:345-347, 365-411, 651-706)

A path passed by the user may hold negative integers (Python counts them from the end), repeated integers and integers in any order. The
definitions repeat those of `Model/Contract.lean` with integers for positions.
-/

namespace OE.Contract
open OE OE.Py OE.Parser OE.Helpers OE.Blas

/-- `list.pop(x)`: a negative `x` counts from the end; `IndexError` out of range. -/
def popInt {α : Type} (l : List α) (x : Int) : Except PyErr (α × List α) :=
  if 0 ≤ x then pop l x.toNat
  else if 0 ≤ x + l.length then pop l (x + l.length).toNat
  else .error .index

/-- `[l.pop(x) for x in xs]`. -/
def popAllInt {α : Type} : List Int → List α → Except PyErr (List α × List α)
  | [], l => .ok ([], l)
  | x :: xs, l => do
    let (a, l') ← popInt l x
    let (as, l'') ← popAllInt xs l'
    .ok (a :: as, l'')

/-- `sorted(l, reverse=True)`. -/
def sortedDescInt (l : List Int) : List Int := l.insertionSort (· ≥ ·)

/-- `find_contraction` (helpers.py:50-103). -/
def findContractionInt (positions : List Int) (inputSets : List (Finset Nat)) (outputSet : Finset Nat) : Except PyErr Contraction := do
  let (inputs, remaining) ← popAllInt (sortedDescInt positions) inputSets
  match inputs with
  | [] => .error .type
  | _ =>
    let idxContract := inputs.foldr (· ∪ ·) ∅
    let idxRemain := remaining.foldr (· ∪ ·) outputSet
    let newResult := idxRemain ∩ idxContract
    .ok { newResult, remaining := remaining ++ [newResult], idxRemoved := idxContract \ newResult, idxContract }

/-- One iteration of the path loop (contract.py:365-409); the positions of the step are returned beside its other entries, whose field
`inds` is left empty. -/
def pathStepInt (useBlas : Bool) (output : Str) (sizeDict : Dict Nat Nat) (st : PathState) (positions : List Int)
    (isLast : Bool) : Except PyErr (PathState × List Int × StepOut) := do
  let inds := sortedDescInt positions
  let c ← findContractionInt inds st.sets output.toFinset
  let (tmpInputs, inputs') ← popAllInt inds st.inputs
  let (tmpShapes, shapes') ← popAllInt inds st.shapes
  let allInds := tmpInputs.flatten
  let cost ← flopCount (enum allInds c.idxContract) (decide (c.idxRemoved ≠ ∅)) inds.length sizeDict
  let size ← computeSizeByDict (enum allInds c.newResult) sizeDict
  let doBlas := if useBlas then canBlas tmpInputs (enum allInds c.newResult) c.idxRemoved (some tmpShapes) else Flag.no
  let idxResult := if isLast then output else tensordotOrder allInds c.newResult
  let shpResult ← findOutputShape tmpInputs tmpShapes idxResult
  let inputs'' := inputs' ++ [idxResult]
  let remaining := if inputs''.length ≤ 20 then some inputs'' else none
  .ok ({ inputs := inputs'', sets := c.remaining, shapes := shapes' ++ [shpResult] }, inds,
       { step := { inds := [], removed := c.idxRemoved, einsumStr := einsumStrOf tmpInputs idxResult, remaining, blas := doBlas },
         cost, scale := c.idxContract.card, size })

/-- The path loop (contract.py:359-411). -/
def pathLoopInt (useBlas : Bool) (output : Str) (sizeDict : Dict Nat Nat) :
    PathState → List (List Int) → Except PyErr (PathState × List (List Int × StepOut))
  | st, [] => .ok (st, [])
  | st, p :: ps => do
    let (st', o) ← pathStepInt useBlas output sizeDict st p ps.isEmpty
    let (st'', os) ← pathLoopInt useBlas output sizeDict st' ps
    .ok (st'', o :: os)

/-- `PathInfo` (contract.py:32-62) for a path of integers. -/
structure PathInfoInt where
  contractionList : List (List Int × Step)
  path : List (List Int)
  scaleList : List Nat
  naiveCost : Nat
  optCost : Nat
  sizeList : List Nat

/-- `contract_path` (contract.py:293-429) with `optimize=path`. -/
def contractPathInt (inputs : List Str) (output : Str) (shapes : List Shape) (path : List (List Int)) (mem : MemLimit)
    (useBlas : Bool) : Except PyErr PathInfoInt := do
  let sets := inputs.map List.toFinset
  let indices := inputs.flatten.toFinset
  let sizeDict ← sizeLoop [] inputs shapes
  let sizeList0 ← (inputs ++ [output]).mapM (fun t => computeSizeByDict t sizeDict)
  let _ ← chooseMemoryArg mem sizeList0
  let inner : Bool := decide (0 < (sets.map Finset.card).sum - indices.card)
  let naive ← flopCount (enum inputs.flatten indices) inner inputs.length sizeDict
  let (_, outs) ← pathLoopInt useBlas output sizeDict { inputs, sets, shapes } path
  .ok { contractionList := outs.map fun o => (o.1, o.2.step), path, scaleList := outs.map fun o => o.2.scale, naiveCost := naive,
        optCost := (outs.map fun o => o.2.cost).sum, sizeList := outs.map fun o => o.2.size }

variable {R : Type} [CommSemiring R]

/-- The loop of `_core_contract` (contract.py:651-706). -/
def coreLoopInt (noEinsum : Bool) : List (List Int × Step) → List (Tensor R) → Except PyErr (List (Tensor R))
  | [], ops => .ok ops
  | s :: ss, ops => do
    let (tmp, rest) ← popAllInt s.1 ops
    let view ← stepResult noEinsum s.2 tmp
    coreLoopInt noEinsum ss (rest ++ [view])

/-- `_core_contract` (contract.py:631-711): `return operands[0]`. -/
def coreContractInt (noEinsum : Bool) (steps : List (List Int × Step)) (ops : List (Tensor R)) : Except PyErr (Tensor R) := do
  let ops' ← coreLoopInt noEinsum steps ops
  match ops' with
  | a :: _ => .ok a
  | [] => .error .index

/-- `contract(subscripts, *ops, optimize=path, ...)` (contract.py:502-603). -/
def contractInt (noEinsum : Bool) (subscripts : Str) (ops : List (Tensor R)) (path : List (List Int)) (mem : MemLimit)
    (useBlas : Bool) : Except PyErr (Tensor R) := do
  let (inp, out) ← parseEinsum subscripts (ops.map Tensor.shape)
  let info ← contractPathInt (splitOn cComma inp) out (ops.map Tensor.shape) path mem useBlas
  coreContractInt noEinsum info.contractionList ops

end OE.Contract
