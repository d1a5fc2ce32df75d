import Verif.Model.Greedy

/-!
# Model of `opt_einsum/path_random.py`

Random numbers, the clock and the executor are oracles: any pick of a positive-weight choice, any moment of a time-out. The
costs are rationals and the weights of the Boltzmann distribution are reduced to what matters: which picks are possible.
-/

namespace OE.Paths
open OE OE.Py

/-- Both terms of a candidate remain. -/
def live (remaining : Dict (Finset Nat) Nat) (c : GCand) : Bool := remaining.has c.k1 && remaining.has c.k2

/-- The first loop of `thermal_chooser` (path_random.py:241-248): pop until `nbranch` live candidates are found or the queue is
empty; the choices and what is left of the queue. The counter bounds the length of the queue. -/
def popChoices (remaining : Dict (Finset Nat) Nat) : Nat → Nat → List GCand → List GCand × List GCand
  | 0, _, queue => ([], queue)
  | _ + 1, 0, queue => ([], queue)
  | fuel + 1, nbranch + 1, queue =>
    match popMin GCand.le queue with
    | none => ([], queue)
    | some (c, q) =>
      if live remaining c then
        let r := popChoices remaining fuel nbranch q
        (c :: r.1, r.2)
      else popChoices remaining fuel (nbranch + 1) q

/-- `thermal_chooser` (path_random.py:211-277). `pick` stands for `random_choices` (path_random.py:270) and gets the costs of the choices. -/
def thermalChooser (nbranch : Nat) (pick : Path → List ℚ → Nat) : Chooser := fun path queue remaining =>
  let r := popChoices remaining queue.length nbranch queue
  match r.1 with
  | [] => (none, r.2)
  | [c] => (some c, r.2)
  | c :: cs =>
    let i := pick path ((c :: cs).map GCand.cost)
    match (c :: cs)[i]? with
    | some chosen => (some chosen, (c :: cs).eraseIdx i ++ r.2)
    | none => (none, r.2)

/-- `ssa_path_compute_cost` (path_random.py:280-302): the loop over the path. Unpacking a step that is not a pair is a `ValueError`. -/
def ssaCostLoop (size : Nat → Nat) (output : Finset Nat) : List (Finset Nat) → Finset Nat → Nat → Nat → Path → Except PyErr (Nat × Nat)
  | _, _, cost, maxSize, [] => .ok (cost, maxSize)
  | inputs, remaining, cost, maxSize, [i, j] :: ps =>
    let r := calcK12 size inputs output remaining i j
    ssaCostLoop size output (inputs ++ [r.1]) (insert inputs.length ((remaining.erase i).erase j)) (cost + r.2)
      (max maxSize (sizeOf size r.1)) ps
  | _, _, _, _, _ :: _ => .error .value

/-- `ssa_path_compute_cost` (path_random.py:280-302): total operations and largest result. -/
def ssaPathCost (size : Nat → Nat) (path : Path) (inputs : List (Finset Nat)) (output : Finset Nat) : Except PyErr (Nat × Nat) :=
  ssaCostLoop size output inputs (Finset.range inputs.length) 0 0 path

/-- A trial's result `(ssa_path, cost, size)`. -/
structure Trial where
  path : Path
  cost : Nat
  size : Nat
  deriving DecidableEq

/-- `_trial_greedy_ssa_path_and_cost` (path_random.py:305-323): the trial number `r`, with its own random numbers. -/
def trialGreedy (fuel : Nat) (size : Nat → Nat) (cost : Nat → CostFn) (chooser : Nat → Option Chooser) (order : GOrder)
    (inputs : List (Finset Nat)) (output : Finset Nat) (r : Nat) : Option (Except PyErr Trial) :=
  match ssaGreedy fuel size (cost r) (if r = 0 then none else chooser r) order inputs output with
  | none => none
  | some (.error e) => some (.error e)
  | some (.ok path) => some (match ssaPathCost size path inputs output with
    | .error e => .error e
    | .ok (c, s) => .ok { path, cost := c, size := s })

/-- `RandomGreedy.choose_fn` (path_random.py:360-373) for the trial `r`. -/
def randomGreedyChooser (nbranch : Nat) (pick : Nat → Path → List ℚ → Nat) (r : Nat) : Option Chooser :=
  if nbranch = 1 then none else some (thermalChooser nbranch (pick r))

/-- The attributes `costs`, `sizes`, `best` of a `RandomOptimizer` (path_random.py:84-86). -/
structure ROSt where
  costs : List Nat
  sizes : List Nat
  flops : WithTop Nat
  size : WithTop Nat
  path : Option Path

/-- A new instance (path_random.py:84-86). -/
def ROSt.fresh : ROSt := { costs := [], sizes := [], flops := ⊤, size := ⊤, path := none }

/-- Recording a trial (path_random.py:186-197). -/
def assessTrial (bySize : Bool) (st : ROSt) (t : Trial) : ROSt :=
  let st := { st with costs := st.costs ++ [t.cost], sizes := st.sizes ++ [t.size] }
  if better bySize t.cost t.size st.flops st.size then { st with flops := t.cost, size := t.size, path := some t.path } else st

/-- The loop over the trials (path_random.py:185-201); `late k`: time has run out after `k` trials of this call. A trial that raises
ends the call; what was recorded remains recorded. -/
def assessLoop (bySize : Bool) (late : Nat → Bool) : Nat → List (Except PyErr Trial) → ROSt → Except PyErr Unit × ROSt
  | _, [], st => (.ok (), st)
  | k, t :: ts, st =>
    match t with
    | .error e => (.error e, st)
    | .ok t =>
      let st := assessTrial bySize st t
      if late (k + 1) then (.ok (), st) else assessLoop bySize late (k + 1) ts st

/-- `_gen_results_parallel` (path_random.py:131-144): the results in the order in which they are yielded; `futures` holds the results
of the submitted jobs. `popleft` of an empty queue is an `IndexError`. -/
def genParallel {τ : Type} (preDispatch : Nat) (submit : Nat → Except PyErr τ) : List Nat → List (Except PyErr τ) → List (Except PyErr τ)
  | [], futures => futures
  | r :: rs, futures =>
    if futures.length < preDispatch then genParallel preDispatch submit rs (futures ++ [submit r])
    else match futures with
      | [] => [.error .index]
      | f :: fs => f :: genParallel preDispatch submit rs fs

/-- The trials of a call in the order in which they are assessed (path_random.py:174-182), unless time runs out. `preDispatch` is `none`
without an executor. -/
def callTrials (maxRepeats : Nat) (preDispatch : Option Nat) (trial : Nat → Except PyErr Trial) (start : Nat) : List (Except PyErr Trial) :=
  match preDispatch with
  | none => (List.range' start maxRepeats).map trial
  | some p => genParallel p trial (List.range' start maxRepeats) []

/-- `RandomOptimizer.__call__` (path_random.py:159-203) when the arguments are those of the first call. The attribute `_repeats_start` is 0 throughout. -/
def roCall (bySize : Bool) (maxRepeats : Nat) (preDispatch : Option Nat) (late : Nat → Bool) (trial : Nat → Except PyErr Trial) (st : ROSt) :
    Except PyErr Path × ROSt :=
  match assessLoop bySize late 0 (callTrials maxRepeats preDispatch trial st.costs.length) st with
  | (.error e, st) => (.error e, st)
  | (.ok _, st) => (match st.path with
    | none => .error .key
    | some p => ssaToLinear p, st)

end OE.Paths
