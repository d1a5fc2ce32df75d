import Verif.Py.Basic

/-!
# Looking up backend functions (opt_einsum/backends/dispatch.py:25-118)

The installed libraries are a fixed environment: which modules can be imported, and which attributes they have. The three module-level
dictionaries are the state.
-/

namespace OE.Dispatch
open OE

variable {F : Type}

/-- What can be imported: for a module name, its attributes; `none` when the import fails. -/
abbrev World (F : Type) := Str → Option (Str → Option F)

/-- `_aliases` (dispatch.py:26-34). -/
def aliases : Dict Str Str := [
  (S "dask", S "dask.array"), (S "theano", S "theano.tensor"), (S "torch", S "opt_einsum.backends.torch"),
  (S "jax", S "jax.numpy"), (S "jaxlib", S "jax.numpy"), (S "autograd", S "autograd.numpy"), (S "mars", S "mars.tensor")]

/-- The module-level dictionaries `_cached_funcs`, `_has_einsum`, `_has_tensordot`. -/
structure St (F : Type) where
  funcs : Dict (Str × Str) F
  hasEinsum : Dict Str Bool
  hasTensordot : Dict Str Bool

/-- The state after importing the module (dispatch.py:57-71, 87, 104); `np` holds numpy's `tensordot`, `transpose`, `einsum`
if numpy is installed. -/
def initial (objectEinsum : F) (np : Option (F × F × F)) : St F :=
  { funcs := match np with
      | none => [((S "einsum", S "object"), objectEinsum)]
      | some (td, tr, es) => [((S "einsum", S "object"), objectEinsum), ((S "tensordot", S "numpy"), td), ((S "transpose", S "numpy"), tr),
          ((S "einsum", S "numpy"), es), ((S "tensordot", S "object"), td), ((S "transpose", S "object"), tr)]
    hasEinsum := []
    hasTensordot := [] }

/-- `_import_func` (dispatch.py:37-52): a failing import is not caught. -/
def importFunc (w : World F) (func backend : Str) (default : Option F) : Except PyErr F :=
  match w ((aliases.get? backend).getD backend) with
  | none => .error .importError
  | some lib => match lib func with
    | some f => .ok f
    | none => match default with
      | none => .error .attribute
      | some d => .ok d

/-- `get_func` (dispatch.py:74-83). -/
def getFunc (w : World F) (func backend : Str) (default : Option F) (st : St F) : Except PyErr F × St F :=
  match st.funcs.get? (func, backend) with
  | some f => (.ok f, st)
  | none => match importFunc w func backend default with
    | .ok f => (.ok f, { st with funcs := st.funcs.set (func, backend) f })
    | .error e => (.error e, st)

/-- `has_einsum` (dispatch.py:90-101): only `AttributeError` is caught. -/
def hasEinsum (w : World F) (backend : Str) (st : St F) : Except PyErr Bool × St F :=
  match st.hasEinsum.get? backend with
  | some b => (.ok b, st)
  | none => match getFunc w (S "einsum") backend none st with
    | (.ok _, st') => (.ok true, { st' with hasEinsum := st'.hasEinsum.set backend true })
    | (.error .attribute, st') => (.ok false, { st' with hasEinsum := st'.hasEinsum.set backend false })
    | (.error e, st') => (.error e, st')

/-- `has_tensordot` (dispatch.py:107-118). -/
def hasTensordot (w : World F) (backend : Str) (st : St F) : Except PyErr Bool × St F :=
  match st.hasTensordot.get? backend with
  | some b => (.ok b, st)
  | none => match getFunc w (S "tensordot") backend none st with
    | (.ok _, st') => (.ok true, { st' with hasTensordot := st'.hasTensordot.set backend true })
    | (.error .attribute, st') => (.ok false, { st' with hasTensordot := st'.hasTensordot.set backend false })
    | (.error e, st') => (.error e, st')

/-- A call of one of the three functions. -/
inductive Op (F : Type)
  | get (func backend : Str) (default : Option F)
  | hasEinsum (backend : Str)
  | hasTensordot (backend : Str)

/-- The state after a call. -/
def Op.run (w : World F) (st : St F) : Op F → St F
  | .get func backend default => (getFunc w func backend default st).2
  | .hasEinsum backend => (Dispatch.hasEinsum w backend st).2
  | .hasTensordot backend => (Dispatch.hasTensordot w backend st).2

/-- The state after a history of calls. -/
def runAll (w : World F) (ops : List (Op F)) (st : St F) : St F := ops.foldl (Op.run w) st

end OE.Dispatch
