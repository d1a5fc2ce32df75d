import Verif.Py.Basic

/-!
# Which function a backend name stands for (for C47)

Written from the documentation of the backends, without the dictionaries of the code.
-/

namespace OE.Spec.Dispatch
open OE

/-- The module in which the array functions of a library live. -/
def home (backend : Str) : Str :=
  if backend = S "dask" then S "dask.array"
  else if backend = S "theano" then S "theano.tensor"
  else if backend = S "torch" then S "opt_einsum.backends.torch"
  else if backend = S "jax" ∨ backend = S "jaxlib" then S "jax.numpy"
  else if backend = S "autograd" then S "autograd.numpy"
  else if backend = S "mars" then S "mars.tensor"
  else backend

/-- The function of that name in the module: `ImportError` if there is no such module, `AttributeError` if it lacks the function. -/
def fromModule {F : Type} (w : Str → Option (Str → Option F)) (func backend : Str) : Except PyErr F :=
  match w (home backend) with
  | none => .error .importError
  | some lib => match lib func with
    | some f => .ok f
    | none => .error .attribute

/-- The function that the backend name stands for: the pure Python `object_einsum` for arrays of objects, numpy's own functions for
numpy and for what else is needed for arrays of objects, the attribute of the module otherwise. -/
def meaning {F : Type} (w : Str → Option (Str → Option F)) (objectEinsum : F) (np : Option (F × F × F)) (func backend : Str) :
    Except PyErr F :=
  if backend = S "object" ∧ func = S "einsum" then .ok objectEinsum
  else match np with
    | none => fromModule w func backend
    | some (td, tr, es) =>
      if (backend = S "numpy" ∨ backend = S "object") ∧ func = S "tensordot" then .ok td
      else if (backend = S "numpy" ∨ backend = S "object") ∧ func = S "transpose" then .ok tr
      else if backend = S "numpy" ∧ func = S "einsum" then .ok es
      else fromModule w func backend

/-- With a default for a function that the module lacks. -/
def orDefault {F : Type} (default : Option F) : Except PyErr F → Except PyErr F
  | .error .attribute => match default with
    | some d => .ok d
    | none => .error .attribute
  | r => r

end OE.Spec.Dispatch
