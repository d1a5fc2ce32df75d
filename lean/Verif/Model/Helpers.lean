import Verif.Py.Basic
import Mathlib.Data.Finset.Lattice.Fold

/-!
# Model of `opt_einsum/helpers.py` and `opt_einsum/blas.py`
-/

namespace OE.Helpers
open OE OE.Py

/-- `compute_size_by_dict` (helpers.py:22-47) on a sequence of labels; `KeyError` for an unknown label. -/
def computeSizeByDict (indices : List Nat) (idxDict : Dict Nat Nat) : Except PyErr Nat :=
  indices.foldlM (fun ret i => do let d ← idxDict.get! i; pure (ret * d)) 1

/-- `flop_count` (helpers.py:106-144). -/
def flopCount (idxContraction : List Nat) (inner : Bool) (numTerms : Nat) (sizeDict : Dict Nat Nat) :
    Except PyErr Nat := do
  let overall ← computeSizeByDict idxContraction sizeDict
  let opFactor := max 1 (numTerms - 1)
  let opFactor := if inner then opFactor + 1 else opFactor
  pure (overall * opFactor)

/-- The four values returned by `find_contraction`. -/
structure Contraction where
  newResult : Finset Nat
  remaining : List (Finset Nat)
  idxRemoved : Finset Nat
  idxContract : Finset Nat
  deriving DecidableEq

/-- `find_contraction` (helpers.py:50-103). Positions are non-negative. `frozenset.union()` of no
positions is a `TypeError`, a position out of range an `IndexError`. -/
def findContraction (positions : List Nat) (inputSets : List (Finset Nat)) (outputSet : Finset Nat) :
    Except PyErr Contraction := do
  let (inputs, remaining) ← popAll (sortedDesc positions) inputSets
  match inputs with
  | [] => .error .type
  | _ =>
    let idxContract := inputs.foldr (· ∪ ·) ∅
    let idxRemain := remaining.foldr (· ∪ ·) outputSet
    let newResult := idxRemain ∩ idxContract
    .ok { newResult, remaining := remaining ++ [newResult], idxRemoved := idxContract \ newResult, idxContract }

end OE.Helpers

namespace OE.Blas
open OE OE.Py

/-- The answers of `can_blas` (blas.py:10-122). -/
inductive Flag
  | no | outerEinsum | dot | dotEinsum | gemm | gemvEinsum | tdot
  deriving DecidableEq, Repr

/-- Truth value of the answer. -/
def Flag.truthy : Flag → Bool
  | .no => false
  | _ => true

/-- `"EINSUM" in blas_flag` (contract.py:666). -/
def Flag.hasEinsum : Flag → Bool
  | .outerEinsum | .dotEinsum | .gemvEinsum => true
  | _ => false

/-- The rejection loop of `can_blas` (blas.py:62-72) for one label. -/
def labelBad (left right : Str) (result : List Nat) (c : Nat) : Bool :=
  let nl := left.count c
  let nr := right.count c
  decide (nl > 1) || decide (nr > 1) || decide (nl + nr > 2) ||
    decide ((nl : Int) + nr - 1 = if c ∈ result then 1 else 0)

/-- `shape[s.find(c)]` (blas.py:78). Python's `-1` (absent label) selects the last dimension; that case
is represented by `getLast?`. -/
def dimAt (s : Str) (shape : Shape) (c : Nat) : Option Nat :=
  match find? s c with
  | some i => shape[i]?
  | none => shape.getLast?

/-- `s[-rs:]` for `rs ≥ 1`. -/
def suffix (s : Str) (rs : Nat) : Str := lastN rs s

/-- The broadcasting check of `can_blas` (blas.py:76-79): some removed label has different dimensions. -/
def bcastBad (left right : Str) (removed : Finset Nat) (shapes : Option (List Shape)) : Bool :=
  match shapes with
  | some (sl :: sr :: _) => decide (∃ c ∈ removed, dimAt left sl c ≠ dimAt right sr c)
  | _ => false

/-- `can_blas` (blas.py:10-122). `idx_removed` is a set; `shapes` are given (as `contract_path` does) or `none`.
An index error in the shape comparison is represented by `none` dimensions. -/
def canBlas (inputs : List Str) (result : List Nat) (removed : Finset Nat) (shapes : Option (List Shape)) : Flag :=
  match inputs with
  | [left, right] =>
    if (left ++ right).any (labelBad left right result) then .no
    else
      if bcastBad left right removed shapes then .no
      else if removed.card = 0 then .outerEinsum
      else
        let rs := removed.card
        if left = right then .dot
        else if left.toFinset = right.toFinset then .dotEinsum
        else if suffix left rs = right.take rs then .gemm
        else if left.take rs = suffix right rs then .gemm
        else if suffix left rs = suffix right rs then .gemm
        else if left.take rs = right.take rs then .gemm
        else if left.toFinset \ removed = ∅ ∨ right.toFinset \ removed = ∅ then .gemvEinsum
        else .tdot
  | _ => .no

end OE.Blas
