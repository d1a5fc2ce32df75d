import Verif.Model.PathConv
import Verif.Spec.Exec

/-!
# What a contraction tree means

`Tree` is the nested-tuple data type of `_tree_to_sequence`; everything else here is specification.
-/

namespace OE.Spec
open OE OE.Paths
variable {α : Type}

mutual
/-- The tensor a tree stands for: a leaf is an input, a tuple is the contraction of its members. -/
def treeValue (combine : Multiset α → α) (v : Nat → α) : Tree → α
  | .leaf i => v i
  | .node cs => combine (Multiset.ofList (treeValues combine v cs))
/-- The tensors of several trees. -/
def treeValues (combine : Multiset α → α) (v : Nat → α) : List Tree → List α
  | [] => []
  | t :: ts => treeValue combine v t :: treeValues combine v ts
end

mutual
/-- The inputs below a tree. -/
def treeLeaves : Tree → List Nat
  | .leaf i => [i]
  | .node cs => forestLeaves cs
/-- The inputs below several trees. -/
def forestLeaves : List Tree → List Nat
  | [] => []
  | t :: ts => treeLeaves t ++ forestLeaves ts
end

mutual
/-- Every tuple in the tree has at least one member. -/
def TreeProper : Tree → Prop
  | .leaf _ => True
  | .node cs => cs ≠ [] ∧ ForestProper cs
/-- The same for several trees. -/
def ForestProper : List Tree → Prop
  | [] => True
  | t :: ts => TreeProper t ∧ ForestProper ts
end

mutual
/-- Number of tuples in the tree. -/
def treeNodes : Tree → Nat
  | .leaf _ => 0
  | .node cs => forestNodes cs + 1
/-- The same for several trees. -/
def forestNodes : List Tree → Nat
  | [] => 0
  | t :: ts => treeNodes t + forestNodes ts
end

end OE.Spec
