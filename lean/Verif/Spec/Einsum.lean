import Verif.Model.Tensor
import Verif.Spec.Contract
import Verif.Spec.Parser
import Mathlib.Algebra.BigOperators.Pi
import Mathlib.Data.Fintype.BigOperators

/-!
# Specification of the Einstein summation

An explicit formula, independent of how the model's backend primitives compute.
-/

namespace OE.Spec
open OE
variable {R : Type} [CommSemiring R] {κ : Type} [DecidableEq κ]

/-- The labels summed over: those of the inputs that are not in the output. -/
def summed (inputs : List (List κ)) (output : List κ) : Finset κ := inputs.flatten.toFinset \ output.toFinset

/-- The value of a label: chosen by `v` if it is summed over, otherwise the output coordinate at its place. -/
def labelValue (inner : Finset κ) (size : κ → Nat) (output : List κ) (coords : List Nat)
    (v : (c : {c // c ∈ inner}) → Fin (size c)) (c : κ) : Nat :=
  if h : c ∈ inner then (v ⟨c, h⟩).val else coords.getD (output.idxOf c) 0

/-- The entry of an operand at given label values; an axis of length 1 is always read at 0. -/
def operandEntry (t : List κ) (A : Tensor R) (value : κ → Nat) : R :=
  A.val ((t.zip A.shape).map (fun p => if p.2 = 1 then 0 else value p.1))

/-- `T` is the Einstein summation of the operands: its shape is given by the output labels, its entry at every
index inside the shape is the sum, over all values of the summed labels, of the product of the operands. -/
def IsEinsum (size : κ → Nat) (inputs : List (List κ)) (output : List κ) (ops : List (Tensor R)) (T : Tensor R) : Prop :=
  T.shape = output.map size ∧
  ∀ coords : List Nat, coords.length = output.length →
    (∀ (i : Nat) (c : κ) (x : Nat), output[i]? = some c → coords[i]? = some x → x < size c) →
    T.val coords = ∑ v : ((c : {c // c ∈ summed inputs output}) → Fin (size c)),
      ((inputs.zip ops).map (fun p => operandEntry p.1 p.2 (labelValue (summed inputs output) size output coords v))).prod

/-- The operands' shapes fit the terms: each shape has the term's rank; `size c` is the broadcast size of each label;
a label repeated within a term has one dimension there; no label has both a zero-length and a length-1
axis. -/
structure OperandsFit (size : κ → Nat) (inputs : List (List κ)) (shapes : List Shape) : Prop where
  rank : ∀ (i : Nat) (t : List κ) (s : Shape), inputs[i]? = some t → shapes[i]? = some s → s.length = t.length
  size : ∀ t ∈ inputs, ∀ c ∈ t, IsLabelSize inputs shapes c (size c)
  diag : ∀ (i j k : Nat) (t : List κ) (s : Shape) (c : κ) (d d' : Nat), inputs[i]? = some t → shapes[i]? = some s →
    t[j]? = some c → t[k]? = some c → s[j]? = some d → s[k]? = some d' → d = d'
  nzo : ∀ c, ¬ (DimOccurs inputs shapes c 0 ∧ DimOccurs inputs shapes c 1)

/-- A parsed equation with fitting operands: as many shapes as terms; labels are not punctuation; the output
consists of distinct labels of the inputs. -/
structure WellPosed (size : Nat → Nat) (inputs : List Str) (output : Str) (shapes : List Shape) : Prop
    extends OperandsFit size inputs shapes where
  nonempty : inputs ≠ []
  len : inputs.length = shapes.length
  punct : ∀ t ∈ inputs, ∀ c ∈ t, ¬ IsPunct c
  nodup : output.Nodup
  sub : ∀ c ∈ output, ∃ t ∈ inputs, c ∈ t

end OE.Spec
