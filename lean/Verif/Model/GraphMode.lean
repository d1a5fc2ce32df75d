import Verif.Model.AnyLibrary
import Verif.Model.Expression

/-!
# Expressions in tensorflow's graph mode (opt_einsum/backends/tensorflow.py:35-92, opt_einsum/contract.py:767-850)

A graph is built when an expression is first called and kept in `_backend_expressions`; later calls feed their arrays to it.
Conversions are memoized by the `id` of the array inside `shared_intermediates` (sharing.py:186-216).

Simplifications:
* A node of the graph is what it evaluates to under a feed. Errors that tensorflow finds while building the graph are found here when
  the graph is run. Memoizing nodes (sharing.py:106-183) changes nothing and is left out (Model/Sharing.lean has it).
* The backend is `tensorflow` throughout, so `_evaluated_constants` and `_backend_expressions` have at most one entry each; no keyword
  arguments are given.
* A context of `shared_intermediates` is entered with a new cache. `log` is not in the code: it lists the conversions of the context.
* `to_tensorflow` returns tensors as they are; that it looks them up in the cache by their `id` first is left out, because they stay alive as
  long as the expression or the cache does.
* When every operand is constant, `evaluate_constants` unpacks one tensor into two names: a `TypeError`, as in Model/Expression.lean.
-/

namespace OE.GraphMode
open OE OE.Py OE.Contract OE.AnyLibrary OE.Expression

variable {A : Type}

/-- A numpy array: its `id` and its contents. -/
structure Obj (A : Type) where
  id : Nat
  val : A

/-- `feed_dict`: arrays by placeholder. -/
abbrev Feed (A : Type) := Dict Nat A

/-- A tensor of the graph: number and shape if its operation is a placeholder, and what it evaluates to. -/
structure Node (A : Type) where
  placeholder : Option (Nat × Shape)
  eval : Feed A → Except PyErr A

/-- `tf.convert_to_tensor(array)`. -/
def Node.const (a : A) : Node A := ⟨none, fun _ => .ok a⟩

/-- `tf.placeholder(dtype, shape)`; running a graph without feeding it is an error. -/
def Node.hole (i : Nat) (s : Shape) : Node A := ⟨some (i, s), fun f => match f.get? i with
  | some a => .ok a
  | none => .error .value⟩

/-- The functions on nodes, where those on arrays are `lib`. -/
def graphOf (lib : Library A) : Library (Node A) where
  einsum := lib.einsum.map (fun fn eq ops _ => .ok ⟨none, fun f => do fn eq (← ops.mapM (fun n => n.eval f)) []⟩)
  tensordot a b axes := .ok ⟨none, fun f => do lib.tensordot (← a.eval f) (← b.eval f) axes⟩
  transpose a axes := .ok ⟨none, fun f => do lib.transpose (← a.eval f) axes⟩

/-- A context of `shared_intermediates`: the conversions among the entries of its cache (sharing.py:202-203), and which conversions took
place. -/
structure Context (A : Type) where
  cache : Dict (Nat × Bool) (Node A)
  log : List (Bool × Obj A)

/-- The number of placeholders made so far and the contexts of the thread, innermost first. -/
structure World (A : Type) where
  made : Nat
  contexts : List (Context A)

/-- `to_tensorflow` without its wrapper (tensorflow.py:35-52), graph mode, for a numpy array. -/
def make (shape : A → Shape) (w : World A) (x : Obj A) (constant : Bool) : Node A × World A :=
  if constant then (.const x.val, w) else (.hole w.made (shape x.val), { w with made := w.made + 1 })

/-- `to_tensorflow(x, constant=...)` for a numpy array, with the wrapper (sharing.py:194-203). -/
def toGraph (shape : A → Shape) (w : World A) (x : Obj A) (constant : Bool) : Node A × World A :=
  match w.contexts with
  | [] => make shape w x constant
  | c :: cs =>
    let log := c.log ++ [(constant, x)]
    match c.cache.get? (x.id, constant) with
    | some n => (n, { w with contexts := { c with log } :: cs })
    | none =>
      let r := make shape w x constant
      (r.1, { r.2 with contexts := { cache := c.cache.set (x.id, constant) r.1, log } :: cs })

/-- An operand of an expression: an array of the caller or an evaluated constant. -/
inductive Operand (A : Type)
  | array (x : Obj A)
  | tensor (n : Node A)

/-- `[to_tensorflow(array) for array in arrays]` (tensorflow.py:62); a tensor is returned as it is. -/
def convertAll (shape : A → Shape) : World A → List (Operand A) → List (Node A) × World A
  | w, [] => ([], w)
  | w, .tensor n :: l =>
    let r := convertAll shape w l
    (n :: r.1, r.2)
  | w, .array x :: l =>
    let t := toGraph shape w x false
    let r := convertAll shape t.2 l
    (t.1 :: r.1, r.2)

/-- `[to_tensorflow(x, constant=True) for x in const_arrays]` (tensorflow.py:81), where `None` stays `None`. -/
def convertConsts (shape : A → Shape) : World A → List (Option (Obj A)) → List (Option (Node A)) × World A
  | w, [] => ([], w)
  | w, none :: l =>
    let r := convertConsts shape w l
    (none :: r.1, r.2)
  | w, some x :: l =>
    let t := toGraph shape w x true
    let r := convertConsts shape t.2 l
    (some t.1 :: r.1, r.2)

/-- `_core_contract(..., evaluate_constants=True)` (contract.py:651-706) with any library; as `OE.Expression.evalLoop`. -/
def evalLoop (lib : Library A) (sharing : Bool) : List Step → List (Option A) → Except PyErr (Option (List (Option A) × List Step))
  | [], _ => .ok none
  | s :: ss, ops => do
    if ← anyNone ops s.inds then .ok (some (ops, s :: ss))
    else
      let (tmp, rest) ← popAll s.inds ops
      let tmp ← present tmp
      let view ← AnyLibrary.stepResult lib sharing [] s tmp
      evalLoop lib sharing ss (rest ++ [some view])

/-- `session.run([x for x in new_ops if x is not None])` (tensorflow.py:86), in place. -/
def sessionRun : List (Option (Node A)) → Except PyErr (List (Option A))
  | [] => .ok []
  | none :: l => do .ok (none :: (← sessionRun l))
  | some n :: l => do
    let a ← n.eval []
    .ok (some a :: (← sessionRun l))

/-- The results of `session.run` are new arrays; the `k`-th operand gets the `id` `ids k`. -/
def withIds (ids : Nat → Nat) : Nat → List (Option A) → List (Option (Obj A))
  | _, [] => []
  | k, o :: l => o.map (fun a => ⟨ids k, a⟩) :: withIds ids (k + 1) l

/-- The attributes of a `ContractExpression` (contract.py:745-765). -/
structure Expr (A : Type) where
  full : List Step
  list : List Step
  fullNumArgs : Nat
  numArgs : Nat
  constants : Dict Nat (Obj A)
  evaluated : Option (List (Option (Node A)))
  compiled : Option (List (Node A) × Node A)

/-- A new expression for `n` operands. -/
def Expr.new (steps : List Step) (n : Nat) (constants : Dict Nat (Obj A)) : Expr A :=
  { full := steps, list := steps, fullNumArgs := n, numArgs := n - constants.length, constants, evaluated := none, compiled := none }

/-- `tmp_const_ops` (contract.py:775). -/
def Expr.slots (e : Expr A) : List (Option (Obj A)) := (List.range e.fullNumArgs).map (fun i => e.constants.get? i)

/-- `evaluate_constants` (contract.py:767-785, tensorflow.py:75-90). -/
def evaluateConstants (lib : Library A) (shape : A → Shape) (ids : Nat → Nat) (w : World A) (e : Expr A) : Except PyErr Unit × World A × Expr A :=
  let c := convertConsts shape w e.slots
  match evalLoop (graphOf lib) (!c.2.contexts.isEmpty) e.full c.1 with
  | .error er => (.error er, c.2, e)
  | .ok none => (.error .type, c.2, e)
  | .ok (some (ops, steps)) =>
    match sessionRun ops with
    | .error er => (.error er, c.2, e)
    | .ok vals =>
      let d := convertConsts shape c.2 (withIds ids 0 vals)
      (.ok (), d.2, { e with evaluated := some d.1, list := steps })

/-- `feed_dict` (tensorflow.py:68). -/
def feedOf : List (Node A) → List (Operand A) → Feed A → Except PyErr (Feed A)
  | p :: ps, o :: os, feed => match p.placeholder, o with
    | none, _ => feedOf ps os feed
    | some (i, _), .array x => feedOf ps os (feed.set i x.val)
    | some _, .tensor _ => .error .type
  | _, _, feed => .ok feed

/-- `session.run` checks that what is fed has the shape of the placeholder. -/
def fits (shape : A → Shape) (ps : List (Node A)) (feed : Feed A) : Bool :=
  ps.all (fun p => match p.placeholder with
    | none => true
    | some (i, s) => (feed.get? i).all (fun a => shape a = s))

/-- `tensorflow_contract` (tensorflow.py:65-69). -/
def runGraph (shape : A → Shape) (ps : List (Node A)) (g : Node A) (ops : List (Operand A)) : Except PyErr A := do
  let feed ← feedOf ps ops []
  if fits shape ps feed then g.eval feed else .error .value

/-- `_get_backend_expression` (contract.py:798-804) with `build_expression_graph` (tensorflow.py:58-71), and the call of what it returns
(contract.py:844). -/
def runCompiled (lib : Library A) (shape : A → Shape) (w : World A) (e : Expr A) (ops : List (Operand A)) : Except PyErr A × World A × Expr A :=
  match e.compiled with
  | some (ps, g) => (runGraph shape ps g ops, w, e)
  | none =>
    let c := convertAll shape w ops
    match AnyLibrary.coreContract (graphOf lib) (!c.2.contexts.isEmpty) [] e.list c.1 with
    | .error er => (.error er, c.2, e)
    | .ok g => (runGraph shape c.1 g ops, c.2, { e with compiled := some (c.1, g) })

/-- `expr(*arrays, backend="tensorflow")` (contract.py:852-905, 787-796). -/
def call (lib : Library A) (shape : A → Shape) (ids : Nat → Nat) (w : World A) (e : Expr A) (arrays : List (Obj A)) :
    Except PyErr A × World A × Expr A :=
  if arrays.length ≠ e.numArgs then (.error .value, w, e)
  else if e.constants = [] then runCompiled lib shape w e (arrays.map Operand.array)
  else
    let go (w : World A) (e : Expr A) (ops : List (Option (Node A))) : Except PyErr A × World A × Expr A :=
      match fill (ops.map (Option.map Operand.tensor)) (arrays.map Operand.array) with
      | .error er => (.error er, w, e)
      | .ok l => runCompiled lib shape w e l
    match e.evaluated with
    | some ops => go w e ops
    | none => match evaluateConstants lib shape ids w e with
      | (.error er, w', e') => (.error er, w', e')
      | (.ok _, w', e') => match e'.evaluated with
        | none => (.error .key, w', e')
        | some ops => go w' e' ops

/-- What may happen in the thread: contexts are entered and left, other code converts arrays, the expression is called or its constants are
evaluated. -/
inductive Event (A : Type)
  | enter
  | exit
  | convert (x : Obj A) (constant : Bool)
  | evaluate (ids : Nat → Nat)
  | call (ids : Nat → Nat) (arrays : List (Obj A))

/-- The state after an event. -/
def step (lib : Library A) (shape : A → Shape) (s : World A × Expr A) : Event A → World A × Expr A
  | .enter => ({ s.1 with contexts := ⟨[], []⟩ :: s.1.contexts }, s.2)
  | .exit => ({ s.1 with contexts := s.1.contexts.tail }, s.2)
  | .convert x constant => ((toGraph shape s.1 x constant).2, s.2)
  | .evaluate ids => (evaluateConstants lib shape ids s.1 s.2).2
  | .call ids arrays => (call lib shape ids s.1 s.2 arrays).2

end OE.GraphMode
