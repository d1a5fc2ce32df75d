import Verif.Model.Eager
import Verif.Spec.AnyLibrary
import Verif.Spec.Expression

/-!
# What is assumed of cupy, torch, jax and tensorflow, and what expressions should do with their arrays
-/

namespace OE.Spec
open OE OE.Py OE.Contract OE.AnyLibrary OE.Eager

variable {A : Type}

/-- The functions of a library do not raise `KeyError`. -/
structure NoKeyError (lib : Library A) : Prop where
  einsum : ∀ fn, lib.einsum = some fn → ∀ eq ops kw, fn eq ops kw ≠ .error .key
  tensordot : ∀ a b axes, lib.tensordot a b axes ≠ .error .key
  transpose : ∀ a axes, lib.transpose a axes ≠ .error .key

/-- The four libraries. -/
def eagerNames : List Str := [S "cupy", S "torch", S "tensorflow", S "jax"]

/-- The module of the class of the arrays of a library. -/
def classModule (W : World A) (b : Str) : Str := if b = S "jax" then W.jax else b

/-- The place to which arrays are moved for a library. -/
def home (W : World A) (b : Str) : Place := ⟨classModule W b, if b = S "torch" then W.device else 0⟩

/-- numpy arrays have an array interface, those of cupy, torch and tensorflow have not; the libraries return their own arrays, do not raise
`KeyError`, and jax provides `tensordot`. -/
structure Conventional (W : World A) : Prop where
  numpy : W.interface (S "numpy") = true
  others : ∀ b ∈ eagerNames, b ≠ S "jax" → W.interface b = false
  jax : W.jax ≠ S "numpy"
  tensordot : W.hasTensordot (S "jax") = .ok true
  made : ∀ b ∈ eagerNames, ∀ ps, (W.made b ps).module = classModule W b
  noKey : ∀ b, NoKeyError (W.lib b)

/-- What becomes of a constant for backend `b`. -/
def toLibrary (W : World A) (b : Str) : Arr A → Except PyErr (Arr A) := (converter W b).getD .ok

/-- Convert all operands, contract them, and convert the result to a numpy array. -/
def convertContract (W : World A) (steps : List Step) (b : Str) (full : List (Arr A)) : Except PyErr (Arr A) := do
  let ts ← full.mapM (toLibrary W b)
  let r ← AnyLibrary.coreContract (placed W b) false [] steps ts
  back b r

/-- Convert the constants only, and contract them with the arrays as they are. -/
def plainContract (W : World A) (steps : List Step) (b : Str) (slots : List (Option (Arr A))) (arrays : List (Arr A)) : Except PyErr (Arr A) := do
  let cs ← slots.mapM (convertOpt (toLibrary W b))
  let full ← Expression.fill cs arrays
  AnyLibrary.coreContract (placed W b) false [] steps full

/-- The functions of `b` accept arrays at the places `P` in any combination and put the result at `q`, which is among `P`. -/
structure Closed (W : World A) (b : Str) (P : Place → Prop) (q : Place) : Prop where
  mem : P q
  accepts : ∀ ps, ps ≠ [] → (∀ p ∈ ps, P p) → W.accepts b ps = true
  made : ∀ ps, ps ≠ [] → (∀ p ∈ ps, P p) → W.made b ps = q

/-- The functions of `b` refuse arrays at different places, and leave the result where the operands are. -/
structure Strict (W : World A) (b : Str) : Prop where
  same : ∀ ps, W.accepts b ps = true → ∀ p ∈ ps, ∀ q ∈ ps, p = q
  stays : ∀ ps, W.accepts b ps = true → ∀ p ∈ ps, W.made b ps = p

end OE.Spec
