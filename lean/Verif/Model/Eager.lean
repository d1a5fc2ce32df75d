import Verif.Model.GraphMode

/-!
# Expressions with the libraries that compute at once: cupy, torch, jax, tensorflow in eager mode
(opt_einsum/backends/cupy.py:9-32, torch.py:22-33, 99-129, jax.py:10-45, tensorflow.py:11-44, 95-123, dispatch.py:119-156, helpers.py:147-151,
contract.py:606-628, 767-905)

Model/Expression.lean takes all libraries to compute the same and to accept each other's arrays. Here an array knows where it is: the module of its
class and its device. The functions of a library accept some combinations of places and raise `TypeError` for others, and `to_cupy`, `to_torch`,
`to_tensorflow` and `to_jax` move arrays.

Simplifications:
* The thread is not inside `shared_intermediates` (conversions that are memoized are the subject of C44); no keyword arguments and no `out` are given.
* All libraries named are installed, but for theano, whose functions are in Model/Theano.lean: here its conversion raises `ImportError`. tensorflow
  is in eager mode (graph mode is Model/GraphMode.lean).
* What a function does with arrays it accepts depends on their contents only. That numpy may hand a call on to the library of its arguments
  (`__array_function__`) is not modelled.
* `jax.jit` traces a function once for each list of shapes; types are left out. A trace consists of the contraction list that was current when it was
  made. What it computes later is what the steps compute. A failed trace is not kept.
* Devices are numbers; only torch has several (`device = "cuda" if torch.cuda.is_available() else "cpu"`, torch.py:29).
* When every operand is constant, `evaluate_constants` unpacks one array into two names: a `TypeError`, as in Model/Expression.lean.
-/

namespace OE.Eager
open OE OE.Py OE.Contract OE.AnyLibrary
open OE.Expression (Lib parseBackend convertBackends hasBackend fill)

variable {A : Type}

/-- Where an array is: the top-level module of its class (what `infer_backend` looks at, contract.py:606-612) and its device. -/
structure Place where
  module : Str
  device : Nat
deriving DecidableEq

/-- An array. -/
structure Arr (A : Type) where
  place : Place
  val : A

/-- What is installed: the functions of each backend, what `has_tensordot` answers, which places of operands the functions of a backend accept
and where they put the result, which classes have an attribute `__array_interface__` (helpers.py:147-151), the device that torch uses, the module
of the class of jax arrays, and the shapes of arrays. -/
structure World (A : Type) where
  lib : Str → Library A
  hasTensordot : Str → Except PyErr Bool
  accepts : Str → List Place → Bool
  made : Str → List Place → Place
  interface : Str → Bool
  device : Nat
  jax : Str
  shape : A → Shape

/-- `parse_backend` (contract.py:615-628). -/
def parse (W : World A) (modules : List Str) (backend : Option Str) : Except PyErr Str :=
  parseBackend ⟨W.hasTensordot, fun b => .ok (W.lib b).einsum.isSome⟩ modules backend

/-- The functions of backend `b` on arrays that know where they are. -/
def placed (W : World A) (b : Str) : Library (Arr A) where
  einsum := (W.lib b).einsum.map (fun fn eq ops _ =>
    if W.accepts b (ops.map Arr.place) then do .ok ⟨W.made b (ops.map Arr.place), ← fn eq (ops.map Arr.val) []⟩ else .error .type)
  tensordot x y axes :=
    if W.accepts b [x.place, y.place] then do .ok ⟨W.made b [x.place, y.place], ← (W.lib b).tensordot x.val y.val axes⟩ else .error .type
  transpose x axes :=
    if W.accepts b [x.place] then do .ok ⟨W.made b [x.place], ← (W.lib b).transpose x.val axes⟩ else .error .type

/-- `to_cupy` (cupy.py:9-16). -/
def toCupy (W : World A) (a : Arr A) : Except PyErr (Arr A) :=
  if W.interface a.place.module then .ok ⟨⟨S "cupy", 0⟩, a.val⟩ else .ok a

/-- `to_torch` (torch.py:99-106): `torch.from_numpy` takes numpy arrays only. -/
def toTorch (W : World A) (a : Arr A) : Except PyErr (Arr A) :=
  if W.interface a.place.module then
    if a.place.module = S "numpy" then .ok ⟨⟨S "torch", W.device⟩, a.val⟩ else .error .type
  else .ok a

/-- `to_tensorflow` in eager mode (tensorflow.py:34-44). -/
def toTensorflow (W : World A) (a : Arr A) : Except PyErr (Arr A) :=
  if W.interface a.place.module then .ok ⟨⟨S "tensorflow", 0⟩, a.val⟩ else .ok a

/-- `to_jax` (jax.py:15-18), and what `jax.jit` does with the arguments of a function. -/
def toJax (W : World A) (a : Arr A) : Except PyErr (Arr A) :=
  if a.place.module = S "numpy" then .ok ⟨⟨W.jax, 0⟩, a.val⟩
  else if a.place.module = W.jax then .ok a else .error .type

/-- The conversion that belongs to a key of `CONVERT_BACKENDS` and `EVAL_CONSTS_BACKENDS` (dispatch.py:121-137). -/
def converter (W : World A) (b : Str) : Option (Arr A → Except PyErr (Arr A)) :=
  if b = S "cupy" then some (toCupy W)
  else if b = S "torch" then some (toTorch W)
  else if b = S "tensorflow" then some (toTensorflow W)
  else if b = S "jax" then some (toJax W)
  else if b = S "theano" then some (fun _ => .error .importError)
  else none

/-- A numpy array. -/
def numpyArray (a : A) : Arr A := ⟨⟨S "numpy", 0⟩, a⟩

/-- Back to numpy: `.get()` (cupy.py:23), `.numpy()` or `.cpu().numpy()` (torch.py:116-119), `.numpy()` (tensorflow.py:99); arrays of other libraries
lack these attributes. `np.asarray` (jax.py:34) takes all. -/
def back (b : Str) (a : Arr A) : Except PyErr (Arr A) :=
  if b = S "jax" then .ok (numpyArray a.val)
  else if a.place.module = b then .ok (numpyArray a.val) else .error .attribute

/-- A `ContractExpression` (contract.py:745-765). Of the functions kept in `_backend_expressions` only that of jax has a state, its traces. -/
structure Expr (A : Type) where
  full : List Step
  list : List Step
  fullNumArgs : Nat
  numArgs : Nat
  constants : Dict Nat (Arr A)
  evaluated : Dict Str (List (Option (Arr A)))
  traces : Dict (List Shape) (List Step)

/-- A new expression for `n` operands. -/
def Expr.new (steps : List Step) (n : Nat) (constants : Dict Nat (Arr A)) : Expr A :=
  { full := steps, list := steps, fullNumArgs := n, numArgs := n - constants.length, constants, evaluated := [], traces := [] }

/-- `tmp_const_ops` (contract.py:775). -/
def Expr.slots (e : Expr A) : List (Option (Arr A)) := (List.range e.fullNumArgs).map (fun i => e.constants.get? i)

/-- `infer_backend` (contract.py:606-612): `None` is a `builtins` object. -/
def inferBackend : Option (Arr A) → Str
  | none => S "builtins"
  | some a => a.place.module

/-- A conversion of an operand that may be `None` (no `__array_interface__`; an empty tree to jax). -/
def convertOpt (conv : Arr A → Except PyErr (Arr A)) : Option (Arr A) → Except PyErr (Option (Arr A))
  | none => .ok none
  | some a => do .ok (some (← conv a))

/-- `self(*ops, backend=b, evaluate_constants=True)` (contract.py:852-905, 806-850). If all operands are numpy arrays and the backend converts,
`evaluate_constants` of the backend is called again, without end: `RecursionError`. -/
def evalWith (W : World A) (full : List Step) (b : Str) (ops : List (Option (Arr A))) : Except PyErr (List (Option (Arr A)) × List Step) :=
  if hasBackend b ∧ ∀ o ∈ ops, inferBackend o = S "numpy" then if b ∈ convertBackends then .error .runtime else .error .key
  else match GraphMode.evalLoop (placed W b) false full ops with
    | .error er => .error er
    | .ok none => .error .type
    | .ok (some r) => .ok r

/-- What `evaluate_constants` computes from the constants and the full contraction list (contract.py:778-782; cupy.py:28-32, torch.py:124-129,
tensorflow.py:104-108, jax.py:39-45). A `KeyError`, wherever it comes from, leads to an attempt without conversion. -/
def evalResult (W : World A) (full : List Step) (slots : List (Option (Arr A))) (b : Str) : Except PyErr (List (Option (Arr A)) × List Step) :=
  let first : Except PyErr (List (Option (Arr A)) × List Step) := match converter W b with
    | none => .error .key
    | some conv => do evalWith W full b (← slots.mapM (convertOpt conv))
  match first with
  | .error .key => evalWith W full b slots
  | r => r

/-- `evaluate_constants` (contract.py:767-785). -/
def evaluateConstants (W : World A) (e : Expr A) (backend : Option Str) : Except PyErr Unit × Expr A :=
  match parse W (e.slots.map inferBackend) backend with
  | .error er => (.error er, e)
  | .ok b => match evalResult W e.full e.slots b with
    | .error er => (.error er, e)
    | .ok (ops, steps) => (.ok (), { e with evaluated := e.evaluated.set b ops, list := steps })

/-- `jax_contract` (jax.py:25-36): the trace for the shapes of the arguments, or else a new one, made of the current contraction list; in it, the
backend is found from the class of the tracers, whose module is `jax`. -/
def runJax (W : World A) (e : Expr A) (ops : List (Arr A)) : Except PyErr (Arr A) × Expr A :=
  match ops.mapM (toJax W) with
  | .error er => (.error er, e)
  | .ok ts =>
    let shapes := ts.map (fun t => W.shape t.val)
    let steps := (e.traces.get? shapes).getD e.list
    match (do
        let b ← parse W (ts.map (fun _ => S "jax")) none
        AnyLibrary.coreContract (placed W b) false [] steps ts) with
    | .error er => (.error er, e)
    | .ok r => (back (S "jax") r, { e with traces := e.traces.set shapes steps })

/-- `_contract_with_conversion` (contract.py:825-850) with what `build_expression` returns (cupy.py:19-25, torch.py:109-121, tensorflow.py:95-101). -/
def runConverted (W : World A) (e : Expr A) (b : Str) (ops : List (Arr A)) : Except PyErr (Arr A) × Expr A :=
  if b = S "jax" then runJax W e ops
  else match converter W b with
    | none => (.error .key, e)
    | some conv => (do
        let ts ← ops.mapM conv
        let r ← AnyLibrary.coreContract (placed W b) false [] e.list ts
        back b r, e)

/-- The end of `__call__` (contract.py:889-895): conversion only if all arrays given are numpy arrays. -/
def finish (W : World A) (e : Expr A) (b : Str) (arrays : List (Arr A)) (ops : List (Arr A)) : Except PyErr (Arr A) × Expr A :=
  if hasBackend b ∧ ∀ a ∈ arrays, a.place.module = S "numpy" then runConverted W e b ops
  else (AnyLibrary.coreContract (placed W b) false [] e.list ops, e)

/-- `finish` with the constants filled in (contract.py:883-885). -/
def fillFinish (W : World A) (e : Expr A) (b : Str) (arrays : List (Arr A)) (consts : List (Option (Arr A))) : Except PyErr (Arr A) × Expr A :=
  match fill consts arrays with
  | .error er => (.error er, e)
  | .ok ops => finish W e b arrays ops

/-- `expr(*arrays, backend=...)` (contract.py:852-905, 787-796). -/
def call (W : World A) (e : Expr A) (arrays : List (Arr A)) (backend : Option Str) : Except PyErr (Arr A) × Expr A :=
  match parse W (arrays.map (fun a => a.place.module)) backend with
  | .error er => (.error er, e)
  | .ok b =>
    if arrays.length ≠ e.numArgs then (.error .value, e)
    else if e.constants = [] then finish W e b arrays arrays
    else match e.evaluated.get? b with
      | some ops => fillFinish W e b arrays ops
      | none => match evaluateConstants W e (some b) with
        | (.error er, e') => (.error er, e')
        | (.ok _, e') => match e'.evaluated.get? b with
          | none => (.error .key, e')
          | some ops => fillFinish W e' b arrays ops

/-- What can be done with an expression. -/
inductive Use (A : Type)
  | call (arrays : List (Arr A)) (backend : Option Str)
  | evaluate (backend : Option Str)

/-- The expression after one use, whether it returned or raised. -/
def use (W : World A) (e : Expr A) : Use A → Expr A
  | .call arrays backend => (call W e arrays backend).2
  | .evaluate backend => (evaluateConstants W e backend).2

/-- The expression after a history of uses. -/
def uses (W : World A) (e : Expr A) (us : List (Use A)) : Expr A := us.foldl (use W) e

end OE.Eager
