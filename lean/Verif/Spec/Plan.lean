import Verif.Spec.Contract
import Mathlib.Algebra.BigOperators.Group.Finset.Basic

/-!
# Specification of a contraction plan and of its cost

Described on label sets and positions only.
-/

namespace OE.Spec
open OE

/-- The elements of `l` at positions not in `p`, in order. -/
def unselected {α : Type} (l : List α) (p : List Nat) : List α :=
  ((List.range l.length).filter (fun i => i ∉ p)).filterMap (fun i => l[i]?)

/-- All labels of the terms at the positions `p`. -/
def labelsAt (terms : List (Finset Nat)) (p : List Nat) : Finset Nat := p.foldr (fun i s => terms.getD i ∅ ∪ s) ∅

/-- The labels of the selected terms that are needed later: by the output or by an unselected term. -/
def keptLabels (output : Finset Nat) (terms : List (Finset Nat)) (p : List Nat) : Finset Nat :=
  (labelsAt terms p).filter (fun c => c ∈ output ∨ ∃ t ∈ unselected terms p, c ∈ t)

/-- The label sets after contracting the positions `p`: the unselected terms, then the result. -/
def afterStep (output : Finset Nat) (terms : List (Finset Nat)) (p : List Nat) : List (Finset Nat) :=
  unselected terms p ++ [keptLabels output terms p]

/-- Every step of the path is legal at its moment. -/
def ValidPath : Nat → List (List Nat) → Prop
  | _, [] => True
  | n, p :: ps => ValidStep n p ∧ ValidPath (n + 1 - p.length) ps

/-- Arithmetic operations of one step: the product of the sizes of all labels involved, times the number of
multiplications per element (at least one), plus one addition if some label is summed. -/
def stepFlops (size : Nat → Nat) (all kept : Finset Nat) (numTerms : Nat) : Nat :=
  (∏ c ∈ all, size c) * (max 1 (numTerms - 1) + if all = kept then 0 else 1)

/-- The figures of one step: operations, number of labels involved, elements of the result. -/
structure StepFigures where
  flops : Nat
  scale : Nat
  elements : Nat

/-- The figures of all steps of a path. -/
def planFigures (size : Nat → Nat) (output : Finset Nat) : List (Finset Nat) → List (List Nat) → List StepFigures
  | _, [] => []
  | terms, p :: ps =>
    { flops := stepFlops size (labelsAt terms p) (keptLabels output terms p) p.length
      scale := (labelsAt terms p).card
      elements := ∏ c ∈ keptLabels output terms p, size c } :: planFigures size output (afterStep output terms p) ps

end OE.Spec
