import Verif.Model.GraphMode

/-!
# Expressions compiled by Theano (opt_einsum/backends/theano.py:9-48, opt_einsum/contract.py:767-850)

As in tensorflow's graph mode (Model/GraphMode.lean, whose simplifications apply) a graph is built when an expression is first called and kept in
`_backend_expressions`. But variables have a number of dimensions instead of a shape, the compiled function gets its arrays by position, and
`theano.function` refuses a list of inputs with a variable in it twice.

`dims ndim` takes the place of the shape of a placeholder.
-/

namespace OE.Theano
open OE OE.Py OE.Contract OE.AnyLibrary OE.GraphMode
open OE.Expression (fill)

variable {A : Type}

/-- The type of a variable (theano.py:18): only the number of dimensions counts (`broadcastable=[False] * len(array.shape)`). -/
def dims (ndim : A → Nat) (a : A) : Shape := [ndim a]

/-- `[None if x is None else to_theano(x.eval(), constant=True) for x in new_ops]` (theano.py:46). Each result of `eval` is a new array, the `k`-th
with the `id` `ids k`; it is not kept, so that the next may have the same `id`. -/
def evalEach (ndim : A → Nat) (ids : Nat → Nat) : Nat → World A → List (Option (Node A)) → Except PyErr (List (Option (Node A))) × World A
  | _, w, [] => (.ok [], w)
  | k, w, none :: l =>
    let r := evalEach ndim ids (k + 1) w l
    (r.1.map (none :: ·), r.2)
  | k, w, some n :: l =>
    match n.eval [] with
    | .error er => (.error er, w)
    | .ok a =>
      let t := toGraph (dims ndim) w ⟨ids k, a⟩ true
      let r := evalEach ndim ids (k + 1) t.2 l
      (r.1.map (some t.1 :: ·), r.2)

/-- `evaluate_constants` (contract.py:767-785, theano.py:40-48). -/
def evaluateConstants (lib : Library A) (ndim : A → Nat) (ids : Nat → Nat) (w : World A) (e : Expr A) : Except PyErr Unit × World A × Expr A :=
  let c := convertConsts (dims ndim) w e.slots
  match evalLoop (graphOf lib) (!c.2.contexts.isEmpty) e.full c.1 with
  | .error er => (.error er, c.2, e)
  | .ok none => (.error .type, c.2, e)
  | .ok (some (ops, steps)) =>
    match evalEach ndim ids 0 c.2 ops with
    | (.error er, w') => (.error er, w', e)
    | (.ok new, w') => (.ok (), w', { e with evaluated := some new, list := steps })

/-- `graph_ins` (theano.py:31): the inputs that are not constants, with number and type. -/
def graphIns (ps : List (Node A)) : List (Nat × Shape) := ps.filterMap Node.placeholder

/-- `[x for x in arrays if not isinstance(x, theano.tensor.TensorConstant)]` (theano.py:35). -/
def argsOf (ops : List (Operand A)) : List A := ops.filterMap (fun o => match o with
  | .array x => some x.val
  | .tensor _ => none)

/-- A call of the compiled function (theano.py:34-35): as many arrays as inputs, each with the number of dimensions of its variable; otherwise
`TypeError`. -/
def runFunction (ndim : A → Nat) (ps : List (Node A)) (g : Node A) (ops : List (Operand A)) : Except PyErr A :=
  if (argsOf ops).length ≠ (graphIns ps).length then .error .type
  else if ((graphIns ps).zip (argsOf ops)).all (fun p => p.1.2 = dims ndim p.2) then
    g.eval (((graphIns ps).zip (argsOf ops)).foldl (fun f p => f.set p.1.1 p.2) [])
  else .error .type

/-- `_get_backend_expression` (contract.py:798-804) with `build_expression` (theano.py:23-37), and the call of what it returns (contract.py:844).
`.value` stands for the `UnusedInputError` of `theano.function` when a variable is listed twice (theano.py:32); nothing is stored then. -/
def runCompiled (lib : Library A) (ndim : A → Nat) (w : World A) (e : Expr A) (ops : List (Operand A)) : Except PyErr A × World A × Expr A :=
  match e.compiled with
  | some (ps, g) => (runFunction ndim ps g ops, w, e)
  | none =>
    let c := convertAll (dims ndim) w ops
    match AnyLibrary.coreContract (graphOf lib) (!c.2.contexts.isEmpty) [] e.list c.1 with
    | .error er => (.error er, c.2, e)
    | .ok g =>
      if ((graphIns c.1).map Prod.fst).Nodup then (runFunction ndim c.1 g ops, c.2, { e with compiled := some (c.1, g) })
      else (.error .value, c.2, e)

/-- `expr(*arrays, backend="theano")` (contract.py:852-905, 787-796). -/
def call (lib : Library A) (ndim : A → Nat) (ids : Nat → Nat) (w : World A) (e : Expr A) (arrays : List (Obj A)) :
    Except PyErr A × World A × Expr A :=
  if arrays.length ≠ e.numArgs then (.error .value, w, e)
  else if e.constants = [] then runCompiled lib ndim w e (arrays.map Operand.array)
  else
    let go (w : World A) (e : Expr A) (ops : List (Option (Node A))) : Except PyErr A × World A × Expr A :=
      match fill (ops.map (Option.map Operand.tensor)) (arrays.map Operand.array) with
      | .error er => (.error er, w, e)
      | .ok l => runCompiled lib ndim w e l
    match e.evaluated with
    | some ops => go w e ops
    | none => match evaluateConstants lib ndim ids w e with
      | (.error er, w', e') => (.error er, w', e')
      | (.ok _, w', e') => match e'.evaluated with
        | none => (.error .key, w', e')
        | some ops => go w' e' ops

/-- The state after an event. -/
def step (lib : Library A) (ndim : A → Nat) (s : World A × Expr A) : Event A → World A × Expr A
  | .enter => ({ s.1 with contexts := ⟨[], []⟩ :: s.1.contexts }, s.2)
  | .exit => ({ s.1 with contexts := s.1.contexts.tail }, s.2)
  | .convert x constant => ((toGraph (dims ndim) s.1 x constant).2, s.2)
  | .evaluate ids => (evaluateConstants lib ndim ids s.1 s.2).2
  | .call ids arrays => (call lib ndim ids s.1 s.2 arrays).2

end OE.Theano
