import Verif.Model.Contract
import Verif.Model.Torch
import Verif.Model.Objects

/-!
# `contract` with any array library and with keyword arguments (opt_einsum/contract.py:123-141, 432-471, 574-711)

Model/Contract.lean has numpy's functions built in. Here the arrays are of any type `A`, the functions `einsum`, `tensordot` and
`transpose` are whatever the library provides, and the keyword arguments which `contract` passes on are carried along.

Simplifications:
* `sharing` says whether the calling thread is inside `shared_intermediates`. Memoization is not repeated here (Model/Sharing.lean);
  what depends on `sharing` is that the memoizing wrapper of `einsum` does not pass the keyword arguments on (sharing.py:161-181).
* The keyword arguments are those not named in the signature of `contract` or `_core_contract`; `out` is not given.
* Comparing an array with `"K"` or `"safe"` is taken to say "different".
-/

namespace OE.AnyLibrary
open OE OE.Py OE.Parser OE.Contract

/-- The value of a keyword argument. -/
inductive Val (A : Type)
  | none
  | text (s : Str)
  | array (a : A)
  | other (n : Nat)

/-- Keyword arguments. -/
abbrev Kw (A : Type) := Dict Str (Val A)

/-- What `backends.get_func` finds for a backend (contract.py:434, 463, 470): `einsum` may be missing, a missing `transpose` is
replaced by the method of the array. -/
structure Library (A : Type) where
  einsum : Option (Str → List A → Kw A → Except PyErr A)
  tensordot : A → A → List Nat × List Nat → Except PyErr A
  transpose : A → List Nat → Except PyErr A

variable {A : Type}

/-- Is the value the string `s`? -/
def Val.isText (s : Str) : Val A → Bool
  | .text t => t = s
  | _ => false

/-- `v is None`. -/
def Val.isNone : Val A → Bool
  | .none => true
  | _ => false

/-- `if (v := kwargs.pop(key, default)) != default: ret[key] = v` (contract.py:127-137). -/
def keepUnless (kw : Kw A) (key : Str) (isDefault : Val A → Bool) : Kw A :=
  match kw.get? key with
  | Option.none => []
  | some v => if isDefault v then [] else [(key, v)]

/-- `_filter_einsum_defaults` (contract.py:123-141). -/
def filterEinsumDefaults (kw : Kw A) : Kw A :=
  let ret := keepUnless kw (S "order") (Val.isText (S "K")) ++ keepUnless kw (S "casting") (Val.isText (S "safe")) ++
    keepUnless kw (S "dtype") Val.isNone ++ keepUnless kw (S "out") Val.isNone
  let rest := kw.filter (fun p => p.1 ∉ [S "order", S "casting", S "dtype", S "out"])
  rest.foldl (fun d p => d.set p.1 p.2) ret

/-- The string that `_einsum` hands on (contract.py:439-448). -/
def handedString (einsumStr : Str) : Str :=
  if hasValidEinsumCharsOnly einsumStr then einsumStr
  else
    let s' := if countArrow einsumStr = 0 then einsumStr ++ [cDash, cGt] ++ findOutputStr einsumStr else einsumStr
    convertToValidEinsumChars s'

/-- `_einsum(einsum_str, *ops, backend=..., **kw)` (contract.py:432-451, sharing.py:156-183). -/
def einsumCall (lib : Library A) (sharing : Bool) (einsumStr : Str) (ops : List A) (kw : Kw A) : Except PyErr A :=
  match lib.einsum with
  | Option.none => .error .attribute
  | some fn => fn (handedString einsumStr) ops (filterEinsumDefaults (if sharing then [] else kw))

/-- One step done with `tensordot` (contract.py:666-692). The memoizing wrapper of `tensordot` has no place for keyword arguments
(sharing.py:133): `TypeError` if there are any. -/
def blasStep (lib : Library A) (kw : Kw A) (step : Step) (tmp : List A) : Except PyErr A :=
  match splitArrow step.einsumStr with
  | [inp, resultsIndex] =>
    match splitOn cComma inp with
    | [left, right] =>
      match tmp with
      | [a, b] =>
        if kw ≠ [] then .error .type
        else do
          let tensorResult := (left ++ right).filter (fun c => c ∉ step.removed)
          let view ← lib.tensordot a b (blasAxes left right step.removed)
          if tensorResult ≠ resultsIndex then do
            let perm ← transposeAxes tensorResult resultsIndex
            lib.transpose view perm
          else .ok view
      | _ => .error .type
    | _ => .error .value
  | _ => .error .value

/-- The new operand of one step (contract.py:665-702): `out=None` is added to what is passed to `_einsum`. -/
def stepResult (lib : Library A) (sharing : Bool) (kw : Kw A) (step : Step) (tmp : List A) : Except PyErr A :=
  if usesBlas lib.einsum.isNone step.blas then blasStep lib kw step tmp
  else einsumCall lib sharing step.einsumStr tmp ((S "out", .none) :: kw)

/-- The loop of `_core_contract` (contract.py:651-706). -/
def coreLoop (lib : Library A) (sharing : Bool) (kw : Kw A) : List Step → List A → Except PyErr (List A)
  | [], ops => .ok ops
  | s :: ss, ops => do
    let (tmp, rest) ← popAll s.inds ops
    let view ← stepResult lib sharing kw s tmp
    coreLoop lib sharing kw ss (rest ++ [view])

/-- `_core_contract` (contract.py:631-711). -/
def coreContract (lib : Library A) (sharing : Bool) (kw : Kw A) (steps : List Step) (ops : List A) : Except PyErr A := do
  let ops' ← coreLoop lib sharing kw steps ops
  match ops' with
  | a :: _ => .ok a
  | [] => .error .index

/-- `contract(subscripts, *ops, optimize=..., memory_limit=..., use_blas=..., backend=..., **kw)` (contract.py:574-603): `lib` is the
library that `backend` selects, `np` is numpy, `shape a` is `a.shape`. With `optimize=False` the call goes to numpy. -/
def contract (shape : A → Shape) (np lib : Library A) (sharing : Bool) (subscripts : Str) (ops : List A) (opt : Optimize)
    (mem : MemLimit) (useBlas : Bool) (kw : Kw A) : Except PyErr A :=
  match opt with
  | .off => einsumCall np sharing subscripts ops ((S "out", .none) :: kw)
  | _ => do
    let (inp, out) ← parseEinsum subscripts (ops.map shape)
    let info ← contractPath (splitOn cComma inp) out (ops.map shape) opt mem useBlas
    coreContract lib sharing kw info.contractionList ops

/-- The library selected by `backend="numpy"` (dispatch.py:63-65). Of the keyword arguments of `np.einsum` only the layout and the type of
the result depend, which the model does not have: they are ignored. -/
def numpyLibrary {R : Type} [CommSemiring R] : Library (Tensor R) where
  einsum := some (fun eq ops _ => npEinsum eq ops)
  tensordot a b axes := npTensordot a b axes.1 axes.2
  transpose := npTranspose

/-- The library selected by `backend="torch"` when torch has no `tensordot` of its own (torch.py:36-97); keyword arguments of `einsum` are
ignored, `a.permute(*axes)` is modelled by `npTranspose`. -/
def torchLibrary {R : Type} [CommSemiring R] : Library (Tensor R) where
  einsum := some (fun eq ops _ => Torch.torchEinsum eq ops)
  tensordot a b axes := Torch.torchTensordot a b
    (.pair (.many (axes.1.map (fun i : Nat => (i : Int)))) (.many (axes.2.map (fun i : Nat => (i : Int)))))
  transpose := npTranspose

/-- The library selected by `backend="object"` (dispatch.py:57-68, object_arrays.py:9-58): `object_einsum` has no place for keyword
arguments. `np.tensordot` on arrays of objects is a parameter. -/
def objectLibrary {α : Type} [Add α] [Mul α] [Inhabited α] (td : Tensor α → Tensor α → List Nat × List Nat → Except PyErr (Tensor α)) :
    Library (Tensor α) where
  einsum := some (fun eq ops kw => if kw.isEmpty then Objects.objectEinsum eq ops else .error .type)
  tensordot := td
  transpose := npTranspose

end OE.AnyLibrary
