import Verif.Py.Basic

/-!
# Specification of paths, label sizes and contraction costs

Independent of the model: plain descriptions used in the statements of the properties.
-/

namespace OE.Spec
open OE

/-- The positions of one contraction step are legal for `n` operands: at least one, distinct, existing. -/
def ValidStep (n : Nat) (p : List Nat) : Prop := p ≠ [] ∧ p.Nodup ∧ ∀ x ∈ p, x < n

/-- A contraction path that reduces `n` operands to one, by at least one step; the step's operands are
removed and its result appended. -/
def CompletePath : Nat → List (List Nat) → Prop
  | _, [] => False
  | n, [p] => ValidStep n p ∧ p.length = n
  | n, p :: q :: ps => ValidStep n p ∧ CompletePath (n + 1 - p.length) (q :: ps)

/-- The dimension `d` occurs for label `c`. -/
def DimOccurs {κ : Type} (inputs : List (List κ)) (shapes : List Shape) (c : κ) (d : Nat) : Prop :=
  ∃ (i j : Nat) (t : List κ) (s : Shape), inputs[i]? = some t ∧ shapes[i]? = some s ∧ t[j]? = some c ∧ s[j]? = some d

/-- Every operand has the rank of its term, and all dimensions of a label other than 1 agree. -/
def Compatible (inputs : List Str) (shapes : List Shape) : Prop :=
  (∀ (i : Nat) (t : Str) (s : Shape), inputs[i]? = some t → shapes[i]? = some s → s.length = t.length) ∧
  ∀ c d d', DimOccurs inputs shapes c d → DimOccurs inputs shapes c d' → d ≠ 1 → d' ≠ 1 → d = d'

/-- The size of a label: one of its dimensions, and all its other dimensions are 1 or equal to it. -/
def IsLabelSize {κ : Type} (inputs : List (List κ)) (shapes : List Shape) (c : κ) (s : Nat) : Prop :=
  DimOccurs inputs shapes c s ∧ ∀ d, DimOccurs inputs shapes c d → d = 1 ∨ d = s

end OE.Spec
