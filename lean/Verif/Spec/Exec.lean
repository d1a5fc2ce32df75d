import Verif.Spec.Plan
import Mathlib.Data.Multiset.MapFold

/-!
# What executing a path means

A contraction of some tensors depends on the multiset of the tensors contracted, not on their order. `combine` is any
such operation on any type of tensors.
-/

namespace OE.Spec
open OE
variable {α : Type}

/-- The tensors at the given positions. -/
def pick (l : List α) (p : List Nat) : Multiset α := Multiset.ofList (p.filterMap (fun i => l[i]?))

/-- The multisets of tensors contracted by a path with recycled positions, in order. -/
def linTrace (combine : Multiset α → α) : List α → List (List Nat) → List (Multiset α)
  | _, [] => []
  | l, p :: ps => pick l p :: linTrace combine (unselected l p ++ [combine (pick l p)]) ps

/-- The operands that remain after a path with recycled positions. -/
def linExec (combine : Multiset α → α) : List α → List (List Nat) → List α
  | l, [] => l
  | l, p :: ps => linExec combine (unselected l p ++ [combine (pick l p)]) ps

/-- The multisets of tensors contracted by a path with static single assignment ids: every tensor ever made keeps its
id, the position in `l`. -/
def ssaTrace (combine : Multiset α → α) : List α → List (List Nat) → List (Multiset α)
  | _, [] => []
  | l, p :: ps => pick l p :: ssaTrace combine (l ++ [combine (pick l p)]) ps

/-- A path with static single assignment ids is legal: `live` are the ids of tensors not yet used, `next` is the id of
the next result; each step uses distinct live ids, at least one. -/
def SsaValid : Finset Nat → Nat → List (List Nat) → Prop
  | _, _, [] => True
  | live, next, p :: ps => p ≠ [] ∧ p.Nodup ∧ (∀ x ∈ p, x ∈ live) ∧ SsaValid (insert next (live \ p.toFinset)) (next + 1) ps

/-- It reduces `n` tensors to one. -/
def SsaComplete (n : Nat) (path : List (List Nat)) : Prop :=
  SsaValid (Finset.range n) n path ∧ (path.map List.length).sum + 1 = n + path.length

end OE.Spec
