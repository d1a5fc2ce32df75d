import Verif.Model.Parser
import Mathlib.Algebra.BigOperators.Group.List.Basic
import Mathlib.Algebra.BigOperators.Ring.Finset
import Mathlib.Data.Finset.Range

/-!
# Arrays and the backend primitives `einsum`, `tensordot`, `transpose`

These are not part of `/repo`: `opt_einsum` calls them in numpy (or another backend). They are modelled
by their documented mathematical meaning, including the shape errors they raise, and belong to the
trusted base. Elements live in an arbitrary commutative semiring. Not modelled: dtype handling, numpy's
limits on the number of operands and of dimensions.
-/

namespace OE
open OE.Py

/-- An array: its shape and its entries (only indices inside the shape are meaningful). -/
structure Tensor (R : Type) where
  shape : Shape
  val : List Nat → R

/-- Index used along an axis of length `d` when the label has value `i`: axes of length 1 broadcast. -/
def bc (d i : Nat) : Nat := if d = 1 then 0 else i

/-- Entry of `T` with broadcasting of axes of length 1. -/
def Tensor.get {R : Type} (T : Tensor R) (idx : List Nat) : R := T.val (List.zipWith bc T.shape idx)

/-- `env` with the value of label `c` set to `i`. -/
def upd (env : Nat → Nat) (c i : Nat) : Nat → Nat := fun x => if x = c then i else env x

/-- Sum of `f` over all values `0 ≤ value < size` of the given labels. -/
def sumOver {R : Type} [AddCommMonoid R] (size : Nat → Nat) :
    List Nat → ((Nat → Nat) → R) → (Nat → Nat) → R
  | [], f, env => f env
  | c :: cs, f, env => ∑ i ∈ Finset.range (size c), sumOver size cs f (upd env c i)

/-- Product of the entries of the operands at the label values `env`. -/
def prodVal {R : Type} [CommMonoid R] (ops : List (Str × Tensor R)) (env : Nat → Nat) : R :=
  (ops.map (fun p => p.2.get (p.1.map env))).prod

/-- All dimensions that label `c` has in the operands. -/
def labelDims (terms : List Str) (shapes : List Shape) (c : Nat) : List Nat :=
  (terms.zip shapes).flatMap (fun p => (p.1.zip p.2).filterMap (fun q => if q.1 = c then some q.2 else none))

/-- The broadcast size of some dimensions: the first one different from 1, or 1. -/
def bdim (dims : List Nat) : Nat := dims.foldl (fun acc d => if acc = 1 then d else acc) 1

/-- The label values described by coordinates of the output. -/
def envOf (out : Str) (coords : List Nat) : Nat → Nat := fun c => coords.getD (out.idxOf c) 0

/-- The labels summed over. -/
def innerLabels (terms : List Str) (out : Str) : List Nat := terms.flatten.dedup.filter (fun c => c ∉ out)

/-- `numpy.einsum` on parsed subscripts: `ValueError` when the number of terms, a rank, a dimension or the
output is inconsistent; otherwise the Einstein sum with broadcasting. A label repeated inside one
operand needs equal dimensions there (numpy's "collapsing index" error). -/
def einsumCore {R : Type} [CommSemiring R] (terms : List Str) (out : Str) (ops : List (Tensor R)) :
    Except PyErr (Tensor R) :=
  let shapes := ops.map Tensor.shape
  if terms.length ≠ ops.length then .error .value
  else if (terms.zip shapes).any (fun p => decide (p.1.length ≠ p.2.length)) then .error .value
  else if (terms.zip shapes).any (fun p => p.1.any (fun c =>
      !((labelDims [p.1] [p.2] c).all (fun d => decide (d = bdim (labelDims [p.1] [p.2] c)))))) then .error .value
  else if terms.flatten.any (fun c => !((labelDims terms shapes c).all
      (fun d => decide (d = 1) || decide (d = bdim (labelDims terms shapes c))))) then .error .value
  else if ¬ out.Nodup ∨ out.any (fun c => decide (c ∉ terms.flatten)) then .error .value
  else
    let size := fun c => bdim (labelDims terms shapes c)
    .ok { shape := out.map size,
          val := fun coords => sumOver size (innerLabels terms out) (prodVal (terms.zip ops)) (envOf out coords) }

/-- numpy's own labels for the `k` dimensions an ellipsis stands for, aligned from the right: the last label is the one of the last of them. They
are not letters. -/
def bcastLabels (k : Nat) : Str := (List.range k).reverse.map (· + 128)

/-- How numpy reads an operand's subscripts: an ellipsis, at most one, stands for the dimensions that the labels leave over. -/
def npTerm (term : Str) (rank : Nat) : Except PyErr Str :=
  if cDot ∉ term then .ok term
  else if term.count cDot ≠ 3 ∨ countDots term ≠ 1 then .error .value
  else if rank + 3 < term.length then .error .value
  else .ok (replaceDots (bcastLabels (rank + 3 - term.length)) term)

/-- The number of broadcast dimensions: of the longest ellipsis. -/
def npBroadcast (terms : List (Str × Nat)) : Nat :=
  terms.foldl (fun n p => if cDot ∈ p.1 then max n (p.2 + 3 - p.1.length) else n) 0

/-- How numpy reads an explicit output when there are `n` broadcast dimensions: unlike `opt_einsum` it does not sum over them. -/
def npOutput (n : Nat) (out : Str) : Except PyErr Str :=
  if cDot ∉ out then (if n = 0 then .ok out else .error .value)
  else if out.count cDot ≠ 3 ∨ countDots out ≠ 1 then .error .value
  else .ok (replaceDots (bcastLabels n) out)

/-- numpy's reading of the two sides of the arrow, ellipses replaced by labels. Without an output, the broadcast dimensions come first,
then the labels that occur once, in alphabetical order. -/
def npSubscripts (l : Str) (out : Option Str) (ranks : List Nat) : Except PyErr (List Str × Str) :=
  let terms := splitOn cComma l
  if terms.length ≠ ranks.length ∨ cDash ∈ l ∨ cGt ∈ l then .error .value
  else do
    let ts ← (terms.zip ranks).mapM (fun p => npTerm p.1 p.2)
    let n := npBroadcast (terms.zip ranks)
    let o ← match out with
      | some r => npOutput n r
      | none => .ok (bcastLabels n ++ Parser.findOutputStr (removeChar cDot l))
    .ok (ts, o)

/-- `numpy.einsum(subscripts, *ops)`: only the 52 letters, the separators and ellipses are accepted. (numpy also ignores spaces; no
string with a space is ever handed to it.) -/
def npEinsum {R : Type} [CommSemiring R] (subscripts : Str) (ops : List (Tensor R)) : Except PyErr (Tensor R) :=
  if Parser.hasValidEinsumCharsOnly subscripts = false then .error .value
  else do
    let (terms, out) ← match splitArrow subscripts with
      | [l, r] => npSubscripts l (some r) (ops.map (fun T => T.shape.length))
      | [l] => npSubscripts l none (ops.map (fun T => T.shape.length))
      | _ => .error .value
    einsumCore terms out ops

/-- Sum of `f` over all index tuples with the given dimensions. -/
def sumIdx {R : Type} [AddCommMonoid R] : List Nat → (List Nat → R) → R
  | [], f => f []
  | d :: ds, f => ∑ i ∈ Finset.range d, sumIdx ds (fun is => f (i :: is))

/-- The axes not contracted, in order. -/
def freeAxes (rank : Nat) (axes : List Nat) : List Nat := (List.range rank).filter (fun p => p ∉ axes)

/-- The full index of an operand of `tensordot`: contracted axes take their value from `k`, the others
from `coords`, in order. -/
def tdIndex (rank : Nat) (axes : List Nat) (k coords : List Nat) : List Nat :=
  (List.range rank).map (fun p => if p ∈ axes then k.getD (axes.idxOf p) 0
    else coords.getD ((freeAxes rank axes).idxOf p) 0)

/-- `numpy.tensordot(a, b, axes=(la, lb))`: the paired axes must exist, be distinct and have equal lengths
(else `ValueError`); remaining axes of `a` come first, then those of `b`. No broadcasting. -/
def npTensordot {R : Type} [CommSemiring R] (a b : Tensor R) (la lb : List Nat) : Except PyErr (Tensor R) :=
  if la.length ≠ lb.length ∨ ¬ la.Nodup ∨ ¬ lb.Nodup ∨ la.any (fun p => decide (a.shape.length ≤ p)) ∨
      lb.any (fun p => decide (b.shape.length ≤ p)) ∨
      la.map (fun p => a.shape.getD p 0) ≠ lb.map (fun p => b.shape.getD p 0) then .error .value
  else
    let fa := freeAxes a.shape.length la
    let fb := freeAxes b.shape.length lb
    .ok { shape := fa.map (fun p => a.shape.getD p 0) ++ fb.map (fun p => b.shape.getD p 0),
          val := fun coords => sumIdx (la.map (fun p => a.shape.getD p 0)) (fun k =>
            a.val (tdIndex a.shape.length la k (coords.take fa.length)) *
            b.val (tdIndex b.shape.length lb k (coords.drop fa.length))) }

/-- `numpy.transpose(a, axes)`: `axes` must be a permutation of the axes (else `ValueError`). -/
def npTranspose {R : Type} (a : Tensor R) (axes : List Nat) : Except PyErr (Tensor R) :=
  if axes.length ≠ a.shape.length ∨ ¬ axes.Nodup ∨ axes.any (fun p => decide (a.shape.length ≤ p)) then .error .value
  else .ok { shape := axes.map (fun p => a.shape.getD p 0),
             val := fun coords => a.val ((List.range a.shape.length).map (fun p => coords.getD (axes.idxOf p) 0)) }

end OE
