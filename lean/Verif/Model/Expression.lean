import Verif.Model.Contract
import Verif.Model.Parser

/-!
# Contraction expressions (opt_einsum/contract.py:606-628, 740-905, 1019-1043; opt_einsum/backends/dispatch.py:121-156)

`contract_expression`, `ContractExpression`, and `contract` with a `backend` argument.

Simplifications:
* An array is the name of the top-level module of its class (what `infer_backend` looks at) and its contents. Converting an array to
  another library and back keeps the contents, and every library computes the same `einsum`, `tensordot` and `transpose`. Hence the
  cached functions of `_backend_expressions` carry no information and are left out (tensorflow's graph mode, whose placeholders have the
  shapes of the first call, is in Model/GraphMode.lean).
* `out` and other keyword arguments are not given.
* Positions of constants are not negative.
* When every operand is constant, `evaluate_constants` finishes the contraction, returns one array and unpacks it into two names;
  here that is a `TypeError` (in Python it depends on the shape of the result; a result of two rows is silently unpacked).
* No module is called `auto`, so a resolved backend is not resolved again.
-/

namespace OE.Expression
open OE OE.Py OE.Contract OE.Parser

variable {R : Type} [CommSemiring R]

/-- An array: the top-level module of its class and its contents. -/
structure Arr (R : Type) where
  module : Str
  tensor : Tensor R

/-- What `backends.has_tensordot` and `backends.has_einsum` answer (dispatch.py:87-118; their caching is `OE.Dispatch`). -/
structure Lib where
  hasTensordot : Str → Except PyErr Bool
  hasEinsum : Str → Except PyErr Bool

/-- `infer_backend` (contract.py:606-612): `None` is a `builtins` object. -/
def inferBackend : Option (Arr R) → Str
  | none => S "builtins"
  | some a => a.module

/-- `parse_backend` (contract.py:615-628), given the modules of the arrays; `backend=None` is `none`. -/
def parseBackend (L : Lib) (modules : List Str) (backend : Option Str) : Except PyErr Str :=
  let guess : Except PyErr Str := match modules with
    | [] => .error .index
    | m :: _ => do if ← L.hasTensordot m then .ok m else .ok (S "numpy")
  match backend with
  | some b => if b = S "auto" then guess else .ok b
  | none => guess

/-- The keys of `CONVERT_BACKENDS` and `EVAL_CONSTS_BACKENDS` (dispatch.py:121-137). -/
def convertBackends : List Str := [S "tensorflow", S "theano", S "cupy", S "torch", S "jax"]

/-- `str.lower` on the ASCII letters; no other character is lowered to a letter of the names above. -/
def lower (s : Str) : Str := s.map (fun c => if 65 ≤ c ∧ c ≤ 90 then c + 32 else c)

/-- `has_backend` (dispatch.py:154-156). -/
def hasBackend (b : Str) : Bool := decide (lower b ∈ convertBackends)

/-- `contract` with a `backend` argument, `optimize` not `False` (contract.py:592-603 and the head of `_core_contract`,
contract.py:645-649). -/
def contractWith (L : Lib) (subscripts : Str) (ops : List (Arr R)) (opt : Optimize) (mem : MemLimit) (useBlas : Bool)
    (backend : Option Str) : Except PyErr (Tensor R) := do
  let (inp, out) ← parseEinsum subscripts (ops.map (fun a => a.tensor.shape))
  let info ← contractPath (splitOn cComma inp) out (ops.map (fun a => a.tensor.shape)) opt mem useBlas
  let b ← parseBackend L (ops.map Arr.module) backend
  let he ← L.hasEinsum b
  coreContract (!he) info.contractionList (ops.map Arr.tensor)

/-- A `ContractExpression` (contract.py:745-765). -/
structure Expr (R : Type) where
  contraction : Str
  fullList : List Step
  list : List Step
  fullNumArgs : Nat
  numArgs : Nat
  constants : Dict Nat (Arr R)
  evaluated : Dict Str (List (Option (Tensor R)))

/-- `ContractExpression.__init__` (contract.py:745-765). -/
def init (contraction : Str) (steps : List Step) (constants : Dict Nat (Arr R)) : Except PyErr (Expr R) := do
  let formatted ← formatConstEinsumStr contraction constants.keys
  let full := contraction.count cComma + 1
  .ok { contraction := formatted, fullList := steps, list := steps, fullNumArgs := full, numArgs := full - constants.length,
        constants, evaluated := [] }

/-- What is given for one operand: a shape, or an array for a constant. -/
inductive Item (R : Type)
  | shape (s : Shape)
  | array (a : Arr R)

/-- The shape `contract_path` sees: that of the dummy `shape_only(s)`, or of the constant itself (contract.py:1039). A constant given as a
shape and a variable given as an array are not modelled beyond failing. -/
def Item.shapeAt (constants : List Nat) (i : Nat) : Item R → Except PyErr Shape
  | .shape s => if i ∈ constants then .error .type else .ok s
  | .array a => if i ∈ constants then .ok a.tensor.shape else .error .type

/-- `constants_dict = {i: shapes[i] for i in constants}` (contract.py:1035). -/
def constantsDict (items : List (Item R)) (constants : List Nat) : Except PyErr (Dict Nat (Arr R)) :=
  constants.foldlM (fun (d : Dict Nat (Arr R)) i => match items[i]? with
    | none => .error .index
    | some (Item.shape _) => .error .type
    | some (Item.array a) => .ok (d.set i a)) []

/-- `contract_expression(subscripts, *items, constants=..., use_blas=..., optimize=..., memory_limit=...)` for string subscripts
(contract.py:1019-1043), without `out` or `backend`. -/
def contractExpression (subscripts : Str) (items : List (Item R)) (constants : List Nat) (opt : Optimize) (mem : MemLimit)
    (useBlas : Bool) : Except PyErr (Expr R) :=
  match opt with
  | .off => .error .value
  | .path [] => .error .value
  | _ => do
    let d ← constantsDict items constants
    let shapes ← items.zipIdx.mapM (fun p => p.1.shapeAt constants p.2)
    let (inp, out) ← parseEinsum subscripts shapes
    let info ← contractPath (splitOn cComma inp) out shapes opt mem useBlas
    init subscripts info.contractionList d

/-- `any(operands[x] is None for x in inds)` (contract.py:657). -/
def anyNone {α : Type} (ops : List (Option α)) : List Nat → Except PyErr Bool
  | [] => .ok false
  | x :: xs => match ops[x]? with
    | none => .error .index
    | some none => .ok true
    | some (some _) => anyNone ops xs

/-- The operands popped for a step, none of which should be `None` (Python would pass `None` to the library). -/
def present {α : Type} : List (Option α) → Except PyErr (List α)
  | [] => .ok []
  | none :: _ => .error .attribute
  | some a :: os => do .ok (a :: (← present os))

/-- `_core_contract(..., evaluate_constants=True)` (contract.py:651-706): `some` is the early return of the operands and the remaining
steps, `none` that the loop finished. -/
def evalLoop (noEinsum : Bool) : List Step → List (Option (Tensor R)) → Except PyErr (Option (List (Option (Tensor R)) × List Step))
  | [], _ => .ok none
  | s :: ss, ops => do
    if ← anyNone ops s.inds then .ok (some (ops, s :: ss))
    else
      let (tmp, rest) ← popAll s.inds ops
      let tmp ← present tmp
      let view ← stepResult noEinsum s tmp
      evalLoop noEinsum ss (rest ++ [some view])

/-- `tmp_const_ops` (contract.py:775). -/
def constOps (e : Expr R) : List (Option (Arr R)) := (List.range e.fullNumArgs).map (fun i => e.constants.get? i)

/-- `evaluate_constants` (contract.py:767-785). For a name that `has_backend` accepts but the tables do not hold (other letter case), the
fallback runs the conversion when every operand is a numpy array, and there the lookup fails for good. -/
def evaluateConstants (L : Lib) (e : Expr R) (backend : Option Str) : Except PyErr Unit × Expr R :=
  match parseBackend L ((constOps e).map inferBackend) backend with
  | .error er => (.error er, e)
  | .ok b =>
    if b ∉ convertBackends ∧ hasBackend b ∧ (constOps e).all (fun x => inferBackend x = S "numpy") then (.error .key, e)
    else match L.hasEinsum b with
      | .error er => (.error er, e)
      | .ok he => match evalLoop (!he) e.fullList ((constOps e).map (Option.map Arr.tensor)) with
        | .error er => (.error er, e)
        | .ok none => (.error .type, e)
        | .ok (some (ops, steps)) => (.ok (), { e with evaluated := e.evaluated.set b ops, list := steps })

/-- `[next(ops_var) if op is None else op for op in ops_const]` (contract.py:885). -/
def fill {α : Type} : List (Option α) → List α → Except PyErr (List α)
  | [], _ => .ok []
  | some a :: os, vs => do .ok (a :: (← fill os vs))
  | none :: _, [] => .error .stopIteration
  | none :: os, v :: vs => do .ok (v :: (← fill os vs))

/-- The end of `__call__` (contract.py:889-895): with or without conversion. -/
def finish (L : Lib) (e : Expr R) (b : Str) (arrays : List (Arr R)) (ops : List (Tensor R)) : Except PyErr (Tensor R) :=
  if hasBackend b ∧ (∀ a ∈ arrays, a.module = S "numpy") ∧ b ∉ convertBackends then .error .key
  else do
    let he ← L.hasEinsum b
    coreContract (!he) e.list ops

/-- `__call__` (contract.py:852-905), `evaluate_constants=False`, with `_get_evaluated_constants` (contract.py:787-796). -/
def call (L : Lib) (e : Expr R) (arrays : List (Arr R)) (backend : Option Str) : Except PyErr (Tensor R) × Expr R :=
  match parseBackend L (arrays.map Arr.module) backend with
  | .error er => (.error er, e)
  | .ok b =>
    if arrays.length ≠ e.numArgs then (.error .value, e)
    else if e.constants = [] then (finish L e b arrays (arrays.map Arr.tensor), e)
    else match e.evaluated.get? b with
      | some ops => (do finish L e b arrays (← fill ops (arrays.map Arr.tensor)), e)
      | none => match evaluateConstants L e (some b) with
        | (.error er, e') => (.error er, e')
        | (.ok _, e') => match e'.evaluated.get? b with
          | none => (.error .key, e')
          | some ops => (do finish L e' b arrays (← fill ops (arrays.map Arr.tensor)), e')

/-- What can be done with an expression. -/
inductive Use (R : Type)
  | call (arrays : List (Arr R)) (backend : Option Str)
  | evaluate (backend : Option Str)

/-- The expression after one use, whether it returned or raised. -/
def use (L : Lib) (e : Expr R) : Use R → Expr R
  | .call arrays backend => (call L e arrays backend).2
  | .evaluate backend => (evaluateConstants L e backend).2

/-- The expression after a history of uses. -/
def uses (L : Lib) (e : Expr R) (us : List (Use R)) : Expr R := us.foldl (use L) e

end OE.Expression
