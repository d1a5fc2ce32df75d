import Verif.Model.Tensor

/-!
# `object_einsum` (opt_einsum/backends/object_arrays.py:9-58)

Elements are of any type with `+` and `*`; nothing is assumed about the two operations. An array with object dtype is a
`Tensor α`; `default` plays the role of the `None`s with which `np.empty(..., dtype=object)` is filled.
-/

namespace OE.Objects
open OE OE.Py
variable {α : Type}

/-- `functools.reduce(f, it)` without an initial value: `TypeError` on an empty iterable. -/
def reduce1 (f : α → α → α) : List α → Except PyErr α
  | [] => .error .type
  | a :: l => .ok (l.foldl f a)

/-- `np.ndindex(*dims)`: all index tuples, last axis fastest. -/
def ndindex : List Nat → List (List Nat)
  | [] => [[]]
  | d :: ds => (List.range d).flatMap (fun i => (ndindex ds).map (i :: ·))

/-- Is `loc` an index inside `dims`? -/
def inBounds : List Nat → List Nat → Bool
  | [], [] => true
  | d :: ds, i :: is => decide (i < d) && inBounds ds is
  | _, _ => false

/-- `array[loc]` for a full index: `IndexError` outside the shape. (A `loc` shorter than the rank would select a
sub-array in numpy; that is not modelled and is an error here.) -/
def element (A : Tensor α) (loc : List Nat) : Except PyErr α :=
  if inBounds A.shape loc then .ok (A.val loc) else .error .index

/-- `d.update(dict(zip(ks, vs)))`. -/
def updateZip (d : Dict Nat Nat) (ks vs : List Nat) : Dict Nat Nat :=
  (ks.zip vs).foldl (fun d p => d.set p.1 p.2) d

/-- The `sizes` dictionary (object_arrays.py:37-40): a later axis overwrites an earlier one. -/
def sizes (ops : List (Str × Tensor α)) : Dict Nat Nat :=
  ops.foldl (fun d p => updateZip d p.1 p.2.shape) []

/-- One product of elements (object_arrays.py:53-55) at the coordinates `coord`. -/
def product [Mul α] (ops : List (Str × Tensor α)) (coord : Dict Nat Nat) : Except PyErr α := do
  let elements ← ops.mapM (fun p => do
    let loc ← p.1.mapM (fun k => coord.get! k)
    element p.2 loc)
  reduce1 (· * ·) elements

/-- `functools.reduce(operator.add, gen_inner_sum())` (object_arrays.py:48-57): `coord` is updated in place, each
inner index overwriting the previous one. -/
def entry [Add α] [Mul α] (ops : List (Str × Tensor α)) (inner innerSize : List Nat) (coord : Dict Nat Nat) : Except PyErr α := do
  let terms ← (ndindex innerSize).mapM (fun cooI => product ops (updateZip coord inner cooI))
  reduce1 (· + ·) terms

/-- `object_einsum(eq, *arrays)` (object_arrays.py:9-58). Unpacking other than two pieces is a `ValueError`. Updating
`coord` in place by every inner index is the same as updating the outer coordinates by that index, since every update
writes all inner labels. -/
def objectEinsum [Add α] [Mul α] [Inhabited α] (eq : Str) (arrays : List (Tensor α)) : Except PyErr (Tensor α) :=
  match splitArrow eq with
  | [lhs, output] => do
    let ops := (splitOn cComma lhs).zip arrays
    let sz := sizes ops
    let outSize ← output.mapM (fun k => sz.get! k)
    let inner := sz.keys.filter (fun k => k ∉ output)
    let innerSize ← inner.mapM (fun k => sz.get! k)
    let entries ← (ndindex outSize).mapM (fun cooO => entry ops inner innerSize (updateZip [] output cooO))
    .ok { shape := outSize,
          val := fun coords => (((ndindex outSize).zip entries).lookup coords).getD default }
  | _ => .error .value

end OE.Objects
