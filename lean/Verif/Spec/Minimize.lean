import Verif.Model.Minimize
import Verif.Spec.Dp
import Mathlib.Data.Nat.Digits.Defs

/-!
# Which strings `minimize` may be, and what is asked of a function

Specification for `Verif.Model.Minimize`.
-/

namespace OE.Spec
open OE OE.Py OE.Paths OE.Minimize

/-- `f` is the factor that the digits `ds` denote, 64 if there are none. -/
def Factor (digit : Nat → Option Nat) (ds : Str) (f : Nat) : Prop :=
  ∃ vs : List Nat, ds.map digit = vs.map some ∧ f = if ds = [] then 64 else Nat.ofDigits 10 vs.reverse

/-- The string `s` names the cost model `m`: `flops`, `size`, `write`, or `combo` or `limit` followed by any number of hyphens and any number of digits. -/
def Names (digit : Nat → Option Nat) (s : Str) (m : Metric) : Prop :=
  (s = S "flops" ∧ m = .flops) ∨ (s = S "size" ∧ m = .size) ∨ (s = S "write" ∧ m = .write) ∨
  (∃ k ds f, s = S "combo" ++ (List.replicate k 45 ++ ds) ∧ Factor digit ds f ∧ m = .combo f) ∨
  (∃ k ds f, s = S "limit" ++ (List.replicate k 45 ++ ds) ∧ Factor digit ds f ∧ m = .limit f)

/-- What a function does that returns: nothing, or it stores one entry for the union of the two sets it was called for, whose contraction is that of
the two, in either order, and whose labels are among those of the two. Labels and cost may be wrong. -/
def Honest {σ : Type} (check : Check σ) : Prop :=
  ∀ ctx st cap s1 s2 e1 e2 cut union xn xn' st', check ctx st cap s1 s2 e1 e2 cut union xn = .ok (xn', st') →
    xn' = xn ∨ ∃ legs cost, legs ⊆ union ∧
      (xn' = xn.set (s1 ||| s2) ⟨legs, cost, .node [e1.tree, e2.tree]⟩ ∨ xn' = xn.set (s1 ||| s2) ⟨legs, cost, .node [e2.tree, e1.tree]⟩)

/-- The function never raises; without a cap on the cost there is always an entry for the union of the two sets afterwards; and the labels it stores
are those of the two operands without the ones to be summed (`cut`) that no other input of the subgraph has. -/
def Accepts {σ : Type} (check : Check σ) : Prop :=
  ∀ ctx st cap s1 s2 e1 e2 cut union xn, ∃ xn' st', check ctx st cap s1 s2 e1 e2 cut union xn = .ok (xn', st') ∧
    (cap = ⊤ → ∃ e, xn'.get? (s1 ||| s2) = some e) ∧
    (xn' = xn ∨ ∃ cost t, xn' = xn.set (s1 ||| s2)
      ⟨union.filter (fun c => ¬ (c ∈ cut ∧ ∀ j, j < ctx.inputs.length → ctx.g.testBit j = true → (s1 ||| s2).testBit j = false → c ∉ ctx.inputs.getD j ∅)), cost, t⟩)

/-- The function is written like the built-in ones, with a cost of its own: it computes the labels as they do, the cost from the size of the contraction,
the size of the result and the costs of the two operands, and stores the entry if the cost is within the cap and less than that of the entry there is, and
the result within the memory limit. It may do anything with its state. -/
def Follows {σ : Type} (check : Check σ) (cost : (f mem c1 c2 : Nat) → Nat) : Prop :=
  ∀ ctx st cap s1 s2 e1 e2 cut union xn,
    let legs := dpCalcLegs ctx.g ctx.allTensors (s1 ||| s2) ctx.inputs cut union
    let c := cost (∏ x ∈ union, ctx.size x) (∏ x ∈ legs, ctx.size x) e1.cost e2.cost
    let entry : DPEntry := ⟨legs, c, .node [e1.tree, e2.tree]⟩
    let stores := WithTop.some c ≤ cap ∧ (∀ e, xn.get? (s1 ||| s2) = some e → c < e.cost) ∧
      ∀ m, ctx.memoryLimit = some m → ∏ x ∈ legs, ctx.size x ≤ m
    (stores → ∃ st', check ctx st cap s1 s2 e1 e2 cut union xn = .ok (xn.set (s1 ||| s2) entry, st')) ∧
    (¬ stores → ∃ st', check ctx st cap s1 s2 e1 e2 cut union xn = .ok (xn, st'))

/-- What is asked of such a cost: it does not distinguish between the operands, is at least their costs, and does not decrease if one of them gets dearer. -/
structure Regular (cost : (f mem c1 c2 : Nat) → Nat) : Prop where
  comm : ∀ f mem c1 c2, cost f mem c1 c2 = cost f mem c2 c1
  le : ∀ f mem c1 c2, c1 ≤ cost f mem c1 c2
  mono : ∀ f mem c1 c1' c2, c1 ≤ c1' → cost f mem c1 c2 ≤ cost f mem c1' c2

/-- The cost of a tree by a cost function; `L S` are the labels of the tensor made of the inputs in `S`. -/
def treeCost (cost : (f mem c1 c2 : Nat) → Nat) (size : Nat → Nat) (L : Finset Nat → Finset Nat) : BTree → Nat
  | .leaf _ => 0
  | .node l r => cost (∏ c ∈ L l.set ∪ L r.set, size c) (∏ c ∈ L (l.set ∪ r.set), size c) (treeCost cost size L l) (treeCost cost size L r)

/-- The function never stores anything, and never raises. -/
def Refuses {σ : Type} (check : Check σ) : Prop :=
  ∀ ctx st cap s1 s2 e1 e2 cut union xn, ∃ st', check ctx st cap s1 s2 e1 e2 cut union xn = .ok (xn, st')

/-- The exception `e` comes from the function. -/
def Raises {σ : Type} (check : Check σ) (e : PyErr) : Prop :=
  ∃ ctx st cap s1 s2 e1 e2 cut union xn, check ctx st cap s1 s2 e1 e2 cut union xn = .error e

end OE.Spec
