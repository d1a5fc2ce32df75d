import Verif.Model.Expression

/-!
# One expression used by several threads (opt_einsum/contract.py:740-905)

Threads interleave at the accesses to the attributes that uses of an expression change: `self._evaluated_constants` and
`self.contraction_list`. Each access is atomic (CPython dictionaries and attributes). The other attributes and the arrays do not change. A
thread that uses the expression several times is a special case: its uses are threads that the scheduler runs one after another.
-/

namespace OE.Expression
open OE OE.Py OE.Contract OE.Parser

variable {R : Type} [CommSemiring R]

/-- Where a use of an expression stands. -/
inductive Pc (R : Type)
  /-- nothing done yet -/
  | start
  /-- about to evaluate the constants (contract.py:775-782) -/
  | evaluate (backend : Option Str)
  /-- about to execute `self._evaluated_constants[backend] = new_ops` (contract.py:784) -/
  | storeOps (b : Str) (ops : List (Option (Tensor R))) (steps : List Step)
  /-- about to execute `self.contraction_list = new_contraction_list` (contract.py:785) -/
  | storeList (steps : List Step)
  /-- about to execute the second `return self._evaluated_constants[backend]` (contract.py:796) -/
  | reread
  /-- operands at hand, about to read `self.contraction_list` (contract.py:814) -/
  | run (b : Str) (ops : List (Tensor R))
  /-- ended; an evaluation of constants returns `None` -/
  | done (r : Except PyErr (Option (Tensor R)))

/-- The part of `evaluate_constants` (contract.py:774-782) that only reads what never changes. -/
def evaluateLocal (L : Lib) (e : Expr R) (backend : Option Str) : Except PyErr (Str × List (Option (Tensor R)) × List Step) := do
  let b ← parseBackend L ((constOps e).map inferBackend) backend
  if b ∉ convertBackends ∧ hasBackend b ∧ (constOps e).all (fun x => inferBackend x = S "numpy") then .error .key
  else
    let he ← L.hasEinsum b
    match ← evalLoop (!he) e.fullList ((constOps e).map (Option.map Arr.tensor)) with
    | none => .error .type
    | some (ops, steps) => .ok (b, ops, steps)

/-- The operands, once the evaluated constants are known (contract.py:885). -/
def toRun (b : Str) (arrays : List (Arr R)) (t : List (Option (Tensor R))) : Pc R :=
  match fill t (arrays.map Arr.tensor) with
  | .error er => .done (.error er)
  | .ok ops => .run b ops

/-- One step of one use: the new attributes and the new place. -/
def stepUse (L : Lib) (e : Expr R) (u : Use R) (pc : Pc R) : Expr R × Pc R :=
  match pc with
  | .start => match u with
    | .evaluate backend => (e, .evaluate backend)
    | .call arrays backend => match parseBackend L (arrays.map Arr.module) backend with
      | .error er => (e, .done (.error er))
      | .ok b =>
        if arrays.length ≠ e.numArgs then (e, .done (.error .value))
        else if e.constants = [] then (e, .run b (arrays.map Arr.tensor))
        else match e.evaluated.get? b with
          | some t => (e, toRun b arrays t)
          | none => (e, .evaluate (some b))
  | .evaluate backend => match evaluateLocal L e backend with
    | .error er => (e, .done (.error er))
    | .ok (b, ops, steps) => (e, .storeOps b ops steps)
  | .storeOps b ops steps => ({ e with evaluated := e.evaluated.set b ops }, .storeList steps)
  | .storeList steps => ({ e with list := steps }, match u with
    | .evaluate _ => .done (.ok none)
    | .call _ _ => .reread)
  | .reread => match u with
    | .evaluate _ => (e, .done (.ok none))
    | .call arrays backend => match parseBackend L (arrays.map Arr.module) backend with
      | .error er => (e, .done (.error er))
      | .ok b => match e.evaluated.get? b with
        | none => (e, .done (.error .key))
        | some t => (e, toRun b arrays t)
  | .run b ops => match u with
    | .evaluate _ => (e, .done (.ok none))
    | .call arrays _ => (e, .done ((finish L e b arrays ops).map some))
  | .done r => (e, .done r)

/-- The expression and the place of every use. -/
structure Threads (R : Type) where
  expr : Expr R
  pcs : List (Pc R)

/-- All uses at their start. -/
def Threads.begin (e : Expr R) (jobs : List (Use R)) : Threads R := ⟨e, jobs.map (fun _ => .start)⟩

/-- Use number `i` makes a step. -/
def Threads.step (L : Lib) (jobs : List (Use R)) (w : Threads R) (i : Nat) : Threads R :=
  match jobs[i]?, w.pcs[i]? with
  | some u, some pc => let r := stepUse L w.expr u pc; ⟨r.1, w.pcs.set i r.2⟩
  | _, _ => w

/-- The uses make steps in the order of the schedule. -/
def Threads.exec (L : Lib) (jobs : List (Use R)) (w : Threads R) (schedule : List Nat) : Threads R :=
  schedule.foldl (Threads.step L jobs) w

end OE.Expression
