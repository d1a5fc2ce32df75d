import Verif.Model.AnyLibrary
import Verif.Spec.Einsum
import Verif.Props.Contract2

/-!
# What `contract` relies on in an array library

`Rep a T` says that the array `a` of the library stands for the tensor `T`.
-/

namespace OE.Spec
open OE OE.AnyLibrary OE.Props

variable {R : Type} [CommSemiring R] {A : Type}

/-- One of the 52 letters. -/
def IsLetter (c : Nat) : Prop := (97 ≤ c ∧ c ≤ 122) ∨ (65 ≤ c ∧ c ≤ 90)

/-- An equation every `einsum` understands: letters only, an explicit output of distinct labels that occur in the terms. -/
structure PlainEquation (terms : List Str) (out : Str) : Prop where
  nonempty : terms ≠ []
  letters : ∀ t ∈ terms, ∀ c ∈ t, IsLetter c
  nodup : out.Nodup
  sub : ∀ c ∈ out, ∃ t ∈ terms, c ∈ t

/-- The equation in writing: terms separated by commas, an arrow, the output. -/
def written (terms : List Str) (out : Str) : Str := Py.join [cComma] terms ++ [cDash, cGt] ++ out

/-- No broadcasting and no empty axis: every axis with a label has the length of that label, which is positive. -/
def PlainShapes (size : Nat → Nat) (terms : List Str) (shapes : List Shape) : Prop :=
  (∀ t ∈ terms, ∀ c ∈ t, 0 < size c) ∧ shapes = terms.map (List.map size)

/-- The library's functions do on arrays what they should do on the tensors they stand for, when `einsum` is called with the keyword
arguments `kw`. With `plain`, `einsum` need neither broadcast nor cope with empty axes. `tensordot` need not cope with more than 52 axes
in all, paired axes counted once. -/
structure Serves (lib : Library A) (kw : Kw A) (plain : Bool) (Rep : A → Tensor R → Prop) : Prop where
  ext : ∀ a S T, Rep a S → SameArray S T → Rep a T
  einsum : ∀ fn, lib.einsum = some fn → ∀ (size : Nat → Nat) (terms : List Str) (out : Str) (as : List A) (Ts : List (Tensor R)),
    PlainEquation terms out → terms.length = Ts.length → OperandsFit size terms (Ts.map Tensor.shape) →
    (plain = true → PlainShapes size terms (Ts.map Tensor.shape)) → List.Forall₂ Rep as Ts →
    ∃ a T, fn (written terms out) as kw = .ok a ∧ Rep a T ∧ IsEinsum size terms out Ts T
  tensordot : ∀ a b X Y la lb Z, Rep a X → Rep b Y → X.shape.length + Y.shape.length ≤ 52 + la.length →
    npTensordot X Y la lb = .ok Z → ∃ c, lib.tensordot a b (la, lb) = .ok c ∧ Rep c Z
  transpose : ∀ a X axes Z, Rep a X → npTranspose X axes = .ok Z → ∃ c, lib.transpose a axes = .ok c ∧ Rep c Z

/-- The documented default of a keyword argument of `einsum`. -/
def IsDefault (key : Str) (v : Val A) : Prop :=
  (key = S "order" ∧ v = .text (S "K")) ∨ (key = S "casting" ∧ v = .text (S "safe")) ∨ (key = S "dtype" ∧ v = .none) ∨
  (key = S "out" ∧ v = .none)

end OE.Spec
