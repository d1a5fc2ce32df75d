import Verif.Py.Basic
import Mathlib.Data.List.Count

/-!
# Executors and jobs of a `RandomOptimizer` (opt_einsum/path_random.py:66-157, 170-208)

Simplifications:
* `parallel` is `False`, `True`, an `int` or a `Decimal` (its integer part), or another object: an executor or `None`.
* Making a `ProcessPoolExecutor` fails if the number of processes is not positive, and may fail otherwise (`broken`); every failure is a
  `ValueError` here.
* `shutdown` does not raise. A process pool that was shut down refuses jobs with `RuntimeError`.
* A trial is its number; `raises r` says that awaiting it raises.
-/

namespace OE.Executors
open OE

/-- An executor: the `k`-th made by the optimizer, or one of the user's. -/
inductive Exec
  | own (k : Nat)
  | user (u : Nat)
  deriving DecidableEq

/-- A value assigned to `parallel`. -/
inductive Setting
  | off
  | on
  | number (n : Int)
  | other (e : Option Nat)

/-- The attributes concerned; `none` is a missing attribute. -/
structure Inst where
  parallel : Option Setting
  managing : Option Bool
  executor : Option (Option Exec)

/-- How many process pools were made, and which executors were shut down, in order. -/
structure World where
  made : Nat
  shut : List Exec

/-- `ProcessPoolExecutor(...)`. -/
def newPool (broken : Nat → Bool) (w : World) (ok : Bool) : Except PyErr Exec × World :=
  if ok && !broken w.made then (.ok (.own w.made), { w with made := w.made + 1 }) else (.error .value, w)

/-- `if getattr(self, "_managing_executor", False): self._executor.shutdown()` (path_random.py:103-104, 207-208). -/
def shutManaged (w : World) (i : Inst) : Except PyErr Unit × World :=
  if i.managing.getD false then
    match i.executor with
    | some (some e) => (.ok (), { w with shut := w.shut ++ [e] })
    | _ => (.error .attribute, w)
  else (.ok (), w)

/-- The setter of `parallel` (path_random.py:100-129). -/
def setParallel (broken : Nat → Bool) (w : World) (i : Inst) (p : Setting) : Except PyErr Unit × World × Inst :=
  match shutManaged w i with
  | (.error e, w) => (.error e, w, i)
  | (.ok _, w) =>
    let i := { i with parallel := some p, managing := some false }
    let pool (ok : Bool) : Except PyErr Unit × World × Inst :=
      match newPool broken w ok with
      | (.error e, w) => (.error e, w, i)
      | (.ok x, w) => (.ok (), w, { i with executor := some (some x), managing := some true })
    match p with
    | .off => (.ok (), w, { i with executor := some none })
    | .on => pool true
    | .number n => pool (decide (0 < n))
    | .other e => (.ok (), w, { i with executor := some (e.map Exec.user) })

/-- `__init__` (path_random.py:66-90): `minimize` is checked before anything is set. -/
def init (broken : Nat → Bool) (w : World) (goodMinimize : Bool) (p : Setting) : Except PyErr Unit × World × Inst :=
  let i : Inst := ⟨none, none, none⟩
  if goodMinimize then setParallel broken w { i with parallel := some .off } p else (.error .value, w, i)

/-- `__del__` (path_random.py:205-208). -/
def del (w : World) (i : Inst) : World := (shutManaged w i).2

/-- What happens to the jobs of a call, in order. -/
inductive JobEvent
  | submit (r : Nat)
  | await (r : Nat)
  | cancel (r : Nat)
  deriving DecidableEq

/-- `while self._futures: yield self._futures.popleft().result()` (path_random.py:143-144), the loop over the trials (path_random.py:185-200)
and `_cancel_futures` (path_random.py:146-149). `late k`: time has run out after `k` trials. -/
def drain (late : Nat → Bool) (raises : Nat → Option PyErr) : Nat → List Nat → List JobEvent × Except PyErr Unit
  | _, [] => ([], .ok ())
  | k, f :: fs =>
    match raises f with
    | some e => ([.await f], .error e)
    | none =>
      if late (k + 1) then (.await f :: fs.map .cancel, .ok ())
      else
        let r := drain late raises (k + 1) fs
        (.await f :: r.1, r.2)

/-- `_gen_results_parallel` (path_random.py:131-144), consumed by the same loop. -/
def jobs (preDispatch : Nat) (late : Nat → Bool) (raises : Nat → Option PyErr) : Nat → List Nat → List Nat → List JobEvent × Except PyErr Unit
  | k, [], futures => drain late raises k futures
  | k, r :: rs, futures =>
    if futures.length < preDispatch then
      let t := jobs preDispatch late raises k rs (futures ++ [r])
      (.submit r :: t.1, t.2)
    else match futures with
      | [] => ([], .error .index)
      | f :: fs =>
        match raises f with
        | some e => ([.await f], .error e)
        | none =>
          if late (k + 1) then (.await f :: fs.map .cancel, .ok ())
          else
            let t := jobs preDispatch late raises (k + 1) rs fs
            (.await f :: t.1, t.2)

/-- The jobs of `__call__` (path_random.py:170-203) with trials `repeats`; `closed e`: the executor `e` does not take jobs any more. Without an
executor the trials are run in the call itself and nothing is recorded here. A missing attribute is an `AttributeError`. The first job is
submitted at once if any may be. -/
def call (closed : Exec → Bool) (i : Inst) (preDispatch : Nat) (late : Nat → Bool) (raises : Nat → Option PyErr) (repeats : List Nat) :
    List JobEvent × Except PyErr Unit :=
  match i.executor with
  | none => ([], .error .attribute)
  | some none => ([], .ok ())
  | some (some e) =>
    if repeats ≠ [] ∧ 0 < preDispatch ∧ closed e then ([], .error .runtime)
    else jobs preDispatch late raises 0 repeats []

/-- The state after a sequence of assignments to `parallel`; exceptions are caught. -/
def assign (broken : Nat → Bool) (s : World × Inst) (p : Setting) : World × Inst := (setParallel broken s.1 s.2 p).2

/-- The life of an optimizer: made, used, deleted. If making it fails it is deleted at once. -/
def lifetime (broken : Nat → Bool) (w : World) (goodMinimize : Bool) (p : Setting) (ps : List Setting) : World :=
  match init broken w goodMinimize p with
  | (.error _, w, i) => del w i
  | (.ok _, w, i) =>
    let s := ps.foldl (assign broken) (w, i)
    del s.1 s.2

end OE.Executors
