import Verif.Spec.CostLaws
import Verif.Spec.EndToEnd
import Verif.Props.Subgraphs

/-!
# Networks in several parts, and paths that contract the parts first
-/

namespace OE.Spec
open OE OE.Paths OE.Props OE.Contract

/-- What a tree makes of the values of its inputs. -/
def btValue {α : Type} (combine : Multiset α → α) (v : Nat → α) : BTree → α
  | .leaf i => v i
  | .node l r => combine {btValue combine v l, btValue combine v r}

/-- The path contracts the `n` inputs as the tree says, whatever a contraction is. -/
def Contracts (n : Nat) (q : Path) (b : BTree) : Prop :=
  ∀ (α : Type) (combine : Multiset α → α) (v : Nat → α), linExec combine ((List.range n).map v) q = [btValue combine v b]

/-- A connected part of the network: linked by summed labels, and sharing none with the rest. -/
structure IsPart (ins : List (Finset Nat)) (out : Finset Nat) (G : Finset Nat) : Prop where
  nonempty : G.Nonempty
  lt : ∀ i ∈ G, i < ins.length
  apart : ∀ i ∈ G, ∀ j, j < ins.length → j ∉ G → ¬ Share ins out i j
  linked : ∀ i ∈ G, ∀ j ∈ G, Chain ins out G i j

/-- Trees that are joined: the trees of some parts, and how their results are contracted with each other. -/
inductive Joined
  | part (b : BTree)
  | join (l r : Joined)

/-- The whole tree. -/
def Joined.tree : Joined → BTree
  | .part b => b
  | .join l r => .node l.tree r.tree

/-- The trees joined. -/
def Joined.parts : Joined → List BTree
  | .part b => [b]
  | .join l r => l.parts ++ r.parts

/-- One after the other. -/
def Joined.inTurn (b : BTree) (bs : List BTree) : Joined := bs.foldl (fun x u => .join x (.part u)) (.part b)

/-- All results of contractions of the tree have a size with the property. -/
def AllResults (P : Nat → Prop) (size : Nat → Nat) (L : Finset Nat → Finset Nat) : BTree → Prop
  | .leaf _ => True
  | .node l r => P (∏ c ∈ L (l.set ∪ r.set), size c) ∧ AllResults P size L l ∧ AllResults P size L r

/-- The trees joined are those of the connected parts, each without outer products and with intermediates within the limit. -/
structure PartsFirst (mem : MemLimit) (size : Nat → Nat) (inputs : List Str) (output : Str) (j : Joined) : Prop where
  all : (j.parts.flatMap BTree.leaves).Perm (List.range inputs.length)
  part : ∀ b ∈ j.parts, IsPart (inputs.map List.toFinset) output.toFinset b.set
  noOuter : ∀ b ∈ j.parts, NoOuter output.toFinset (openLabels (inputs.map List.toFinset) output.toFinset) b
  fits : ∀ b ∈ j.parts, AllResults (WithinMemory mem size inputs output) size (openLabels (inputs.map List.toFinset) output.toFinset) b

/-- No label is on operands of different parts. -/
def PartsDisjoint (ins : List (Finset Nat)) (out : Finset Nat) : Prop :=
  ∀ i < ins.length, ∀ j < ins.length, ∀ c, c ∈ ins.getD i ∅ → c ∈ ins.getD j ∅ → Chain ins out (Finset.range ins.length) i j

/-- The size of what a tree makes. -/
def outSize (size : Nat → Nat) (ins : List (Finset Nat)) (out : Finset Nat) (b : BTree) : Nat := ∏ c ∈ openLabels ins out b.set, size c

/-- The factor by which joins in another shape, or hyperedges, can be better. -/
def slackOf : Metric → Nat
  | .size => 1
  | _ => 2

end OE.Spec
