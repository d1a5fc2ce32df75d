import Verif.Model.AnyLibrary

/-!
# Data types of the arrays in `contract` (opt_einsum/contract.py:432-471, 631-711)

`opt_einsum` never looks at data types: the library gives each result a type that depends on the types of the arrays it was computed
from. Here an array is a pair of its data type and the rest of it. The library is any library of Model/AnyLibrary.lean; `promote` is
its rule for the type of a result (`numpy.result_type` for numpy).

Simplifications: no keyword argument `dtype`; the values do not depend on the types.
-/

namespace OE.DataType
open OE OE.Py OE.Contract OE.AnyLibrary

variable {A D : Type}

/-- The value of a keyword argument for the library underneath. -/
def bareVal : Val (D × A) → Val A
  | .none => .none
  | .text s => .text s
  | .array a => .array a.2
  | .other n => .other n

/-- The functions that `backends.get_func` finds (contract.py:434, 463, 470) with the data types of their results: `einsum` promotes the
types of all its operands, `tensordot` those of two arrays, `transpose` keeps the type. -/
def typed (promote : List D → D) (lib : Library A) : Library (D × A) where
  einsum := lib.einsum.map (fun fn eq ops kw => do
    let a ← fn eq (ops.map Prod.snd) (kw.map (fun p => (p.1, bareVal p.2)))
    .ok (promote (ops.map Prod.fst), a))
  tensordot x y axes := do
    let a ← lib.tensordot x.2 y.2 axes
    .ok (promote [x.1, y.1], a)
  transpose x axes := do
    let a ← lib.transpose x.2 axes
    .ok (x.1, a)

/-- `contract(subscripts, *ops, optimize=..., memory_limit=..., use_blas=..., backend=...)` (contract.py:574-603) on arrays with types. -/
def contractTyped (promote : List D → D) (shape : A → Shape) (np lib : Library A) (sharing : Bool) (subscripts : Str) (ops : List (D × A))
    (opt : Optimize) (mem : MemLimit) (useBlas : Bool) : Except PyErr (D × A) :=
  AnyLibrary.contract (fun a => shape a.2) (typed promote np) (typed promote lib) sharing subscripts ops opt mem useBlas []

end OE.DataType
