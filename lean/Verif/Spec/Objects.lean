import Verif.Spec.Einsum

/-! # What `object_einsum` may be given, and how its elements are read in a commutative semiring -/

namespace OE.Spec
open OE

/-- The array with `φ` applied to every element. -/
def mapTensor {α β : Type} (φ : α → β) (A : Tensor α) : Tensor β := ⟨A.shape, fun i => φ (A.val i)⟩

/-- Consistent shapes without broadcasting: every axis with label `c` has length `size c`. -/
def ExactShapes {α : Type} (size : Nat → Nat) (inputs : List Str) (arrays : List (Tensor α)) : Prop :=
  inputs.length = arrays.length ∧
  ∀ (i : Nat) (t : Str) (A : Tensor α), inputs[i]? = some t → arrays[i]? = some A → A.shape = t.map size

end OE.Spec
