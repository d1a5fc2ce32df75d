import Verif.Model.ArrayLike

/-!
# Specification: nested lists of numbers
-/

namespace OE.Spec
open OE OE.Contract

variable {R : Type}

mutual
/-- A number, an array without axes, or a list, not empty, of such things. -/
def NestOfNumbers : Obj R → Prop
  | .array t => t.shape = []
  | .number _ => True
  | .seq items => items ≠ [] ∧ AllNests items
  | .other => False

/-- Each of them is a nest of numbers. -/
def AllNests : List (Obj R) → Prop
  | [] => True
  | x :: xs => NestOfNumbers x ∧ AllNests xs
end

/-- Going from a list to its first item again and again never meets an empty list and ends at something without axes. -/
def FirstsEnd : Obj R → Prop
  | .array t => t.shape = []
  | .number _ => True
  | .seq [] => False
  | .seq (x :: _) => FirstsEnd x
  | .other => True

/-- An operand that is an array or a nest of numbers. -/
def Usable : Obj R → Prop
  | .array _ => True
  | x => NestOfNumbers x

/-- The index is inside the shape. -/
def Inside (shape idx : List Nat) : Prop := idx.length = shape.length ∧ ∀ p ∈ idx.zip shape, p.1 < p.2

instance (shape idx : List Nat) : Decidable (Inside shape idx) := by unfold Inside; infer_instance

mutual
/-- `o[i][j]...` with as many indices as there are axes; nothing where that fails. -/
def entry : Obj R → List Nat → Option R
  | .number r, [] => some r
  | .array t, idx => if Inside t.shape idx then some (t.val idx) else none
  | .seq items, i :: rest => entryOf items i rest
  | _, _ => none

/-- The entry of the `i`-th item. -/
def entryOf : List (Obj R) → Nat → List Nat → Option R
  | [], _, _ => none
  | x :: _, 0, rest => entry x rest
  | _ :: xs, i + 1, rest => entryOf xs i rest
end

end OE.Spec
