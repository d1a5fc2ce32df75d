import Verif.Model.Dp
import Verif.Spec.Tree
import Verif.Spec.Search

/-!
# Binary contraction trees and what they cost

Specification for `DynamicProgramming`. Only the data types `Tree` (nested tuples) and `Metric` (the name of the cost
model) are taken from the model.
-/

namespace OE.Spec
open OE OE.Paths

/-- A binary tree over the inputs. -/
inductive BTree
  | leaf (i : Nat)
  | node (l r : BTree)
  deriving DecidableEq

/-- The inputs of a tree. -/
def BTree.leaves : BTree → List Nat
  | .leaf i => [i]
  | .node l r => l.leaves ++ r.leaves

/-- The inputs of a tree, as a set. -/
def BTree.set (b : BTree) : Finset Nat := b.leaves.toFinset

/-- The labels of the tensor that results from contracting the inputs in `S`: those that the output or an input outside
`S` still needs. -/
def openLabels (inputs : List (Finset Nat)) (output : Finset Nat) (S : Finset Nat) : Finset Nat :=
  (S.biUnion (fun i => inputs.getD i ∅)).filter (fun c => c ∈ output ∨ ∃ k ∈ Finset.range inputs.length \ S, c ∈ inputs.getD k ∅)

/-- The cost model is one of those that have a name. -/
def Named (metric : Metric) : Prop := ∀ fn, metric ≠ .custom fn

/-- The cost of a contraction on top of those of its two operands: `f` is the size of the contraction, `mem` the size of
its result. -/
def stepCost (metric : Metric) (f mem c1 c2 : Nat) : Nat :=
  match metric with
  | .flops => c1 + c2 + f
  | .size => max (max c1 c2) mem
  | .write => c1 + c2 + mem
  | .combo factor => c1 + c2 + (f + factor * mem)
  | .limit factor => c1 + c2 + max f (factor * mem)
  | .custom fn => fn.step f mem c1 c2

/-- The cost of a tree; `L S` are the labels of the tensor made of the inputs in `S`. -/
def btCost (metric : Metric) (size : Nat → Nat) (L : Finset Nat → Finset Nat) : BTree → Nat
  | .leaf _ => 0
  | .node l r => stepCost metric (∏ c ∈ L l.set ∪ L r.set, size c) (∏ c ∈ L (l.set ∪ r.set), size c) (btCost metric size L l) (btCost metric size L r)

/-- No contraction of the tree is an outer product: the two operands always share a label that is not an output. -/
def NoOuter (output : Finset Nat) (L : Finset Nat → Finset Nat) : BTree → Prop
  | .leaf _ => True
  | .node l r => (∃ c, c ∈ L l.set ∧ c ∈ L r.set ∧ c ∉ output) ∧ NoOuter output L l ∧ NoOuter output L r

/-- The result of every contraction of the tree has at most `m` elements. -/
def Fits (size : Nat → Nat) (L : Finset Nat → Finset Nat) (limit : Option Nat) : BTree → Prop
  | .leaf _ => True
  | .node l r => (∀ m, limit = some m → ∏ c ∈ L (l.set ∪ r.set), size c ≤ m) ∧ Fits size L limit l ∧ Fits size L limit r

/-- The trees among which the search chooses. -/
def Allowed (searchOuter : Bool) (size : Nat → Nat) (output : Finset Nat) (L : Finset Nat → Finset Nat) (limit : Option Nat) (b : BTree) : Prop :=
  b.leaves.Nodup ∧ (searchOuter = false → NoOuter output L b) ∧ Fits size L limit b

/-- The input `i` has a lone label: one that neither the output nor another input has. -/
def HasLone (inputs : List (Finset Nat)) (output : Finset Nat) (i : Nat) : Prop := openLabels inputs output {i} ≠ inputs.getD i ∅

/-- The nested tuple `t` describes the tree `b`; an input with lone labels, and no other, is wrapped, `(i,)`, to have them summed first. -/
inductive Represents (inputs : List (Finset Nat)) (output : Finset Nat) : Tree → BTree → Prop
  | leaf (i : Nat) : ¬ HasLone inputs output i → Represents inputs output (.leaf i) (.leaf i)
  | wrapped (i : Nat) : HasLone inputs output i → Represents inputs output (.node [.leaf i]) (.leaf i)
  | node {t u : Tree} {l r : BTree} : Represents inputs output t l → Represents inputs output u r →
    Represents inputs output (.node [t, u]) (.node l r)

end OE.Spec
