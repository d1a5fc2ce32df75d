import Verif.Model.Contract

/-!
# Operands that are not arrays (parser.py:172-192, 330-334; contract.py:299-302)

`contract` takes numbers and nested lists too. It reads their shapes itself with `get_shape` and hands the objects on as they are; numpy's
functions turn each argument into an array. Text and bytes, which `get_shape` takes for scalars, are left out: no array of numbers can be made
of them.
-/

namespace OE.Contract
open OE OE.Py OE.Parser

/-- An operand as the user's program passes it: something with a `shape`, a number, a list or tuple, or anything else. -/
inductive Obj (R : Type)
  | array (t : Tensor R)
  | number (r : R)
  | seq (items : List (Obj R))
  | other

/-- The loop of `get_shape` (parser.py:184-189): lengths along the first items; `x[0]` of an empty list is an `IndexError`. Anything that is
not a list ends it, an array too. -/
def seqShape {R : Type} : Obj R → Except PyErr Shape
  | .seq [] => .error .index
  | .seq (x :: xs) => do
    let s ← seqShape x
    .ok ((xs.length + 1) :: s)
  | _ => .ok []

/-- `get_shape` (parser.py:175-192). -/
def getShape {R : Type} : Obj R → Except PyErr Shape
  | .array t => .ok t.shape
  | .number _ => .ok []
  | .seq items => seqShape (.seq items)
  | .other => .error .value

variable {R : Type} [CommSemiring R]

/-- The array whose rows are the given arrays; numpy's `ValueError` when their shapes differ. -/
def stackRows : List (Tensor R) → Except PyErr (Tensor R)
  | [] => .ok { shape := [0], val := fun _ => 0 }
  | t :: ts =>
    if ts.all (fun u => decide (u.shape = t.shape)) then
      .ok { shape := (ts.length + 1) :: t.shape,
            val := fun idx => match idx with
              | i :: rest => match (t :: ts)[i]? with
                | some u => u.val rest
                | none => 0
              | [] => 0 }
    else .error .value

mutual
/-- `numpy.asanyarray`, not part of `/repo`: what numpy's functions do to each argument. Of an object that is none of these it makes an
array of objects, represented by a `TypeError`. -/
def asArray : Obj R → Except PyErr (Tensor R)
  | .array t => .ok t
  | .number r => .ok { shape := [], val := fun _ => r }
  | .seq items => do
    let ts ← asArrays items
    stackRows ts
  | .other => .error .type

/-- `numpy.asanyarray` of each. -/
def asArrays : List (Obj R) → Except PyErr (List (Tensor R))
  | [] => .ok []
  | x :: xs => do
    let t ← asArray x
    let ts ← asArrays xs
    .ok (t :: ts)
end

/-- The loop of `_core_contract` (contract.py:651-706): the operands are handed to numpy as they are. -/
def coreLoopObj : List Step → List (Obj R) → Except PyErr (List (Obj R))
  | [], ops => .ok ops
  | s :: ss, ops => do
    let (tmp, rest) ← popAll s.inds ops
    let ts ← asArrays tmp
    let view ← stepResult false s ts
    coreLoopObj ss (rest ++ [.array view])

/-- `contract` (contract.py:502-603) with operands of any kind; the backend is numpy (`parse_backend` finds it for lists and numbers,
contract.py:615-628, because `builtins` has no `tensordot`). -/
def contractObj (subscripts : Str) (ops : List (Obj R)) (opt : Optimize) (mem : MemLimit) (useBlas : Bool) : Except PyErr (Obj R) :=
  match opt with
  | .off => do
    let ts ← asArrays ops
    let t ← einsumCall false subscripts ts
    .ok (.array t)
  | _ => do
    let shapes ← ops.mapM getShape
    let (inp, out) ← parseEinsum subscripts shapes
    let info ← contractPath (splitOn cComma inp) out shapes opt mem useBlas
    let ops' ← coreLoopObj info.contractionList ops
    match ops' with
    | a :: _ => .ok a
    | [] => .error .index

end OE.Contract
