import Verif.Model.CustomOptimizer
import Verif.Model.NoCutoff

/-!
# Model of `opt_einsum/paths.py` and `opt_einsum/path_random.py`: what `cost_fn` may be

`Model/Greedy.lean` takes a cost function that returns. Here the search is modelled for a cost function of the user that may raise, and for
strings: one that is no key of `_COST_FNS` is kept, and calling it is a `TypeError`. A function that returns something other than a
number is left out.
-/

namespace OE.Paths
open OE OE.Py

/-- A cost function `cost_fn(size12, size1, size2, k12, k1, k2)` that may raise; the first argument as for `CostFn`. -/
abbrev CostFnE := Path → Nat → Nat → Nat → Finset Nat → Finset Nat → Finset Nat → Except PyErr ℚ

/-- What is given as `cost_fn`. -/
inductive CostArg
  | name (s : Str)
  | fn (f : CostFnE)

/-- `_COST_FNS.get(cost_fn, cost_fn)` (paths.py:324-327, 614), as it is called at paths.py:535; `jitter` stands for
`cost_memory_removed_jitter` (paths.py:317-321). -/
def CostArg.resolve (jitter : CostFn) : CostArg → CostFnE
  | .name s =>
    if s = S "memory-removed" then fun p a b c x y z => .ok (costMemoryRemoved p a b c x y z)
    else if s = S "memory-removed-jitter" then fun p a b c x y z => .ok (jitter p a b c x y z)
    else fun _ _ _ _ _ _ _ => .error .type
  | .fn f => f

/-- `_get_candidate` (paths.py:521-548). -/
def getCandidateE (cfg : GCfg) (costE : CostFnE) (st : GSt) (seed : Path) (k1 k2 : Finset Nat) : Except PyErr GCand := do
  let either := k1 ∪ k2
  let two := k1 ∩ k2
  let one := either \ two
  let k12 := (either ∩ cfg.output) ∪ (two ∩ st.ref3) ∪ (one ∩ st.ref2)
  let cost ← costE seed (sizeOf cfg.size k12) (sizeOf cfg.size k1) (sizeOf cfg.size k2) k12 k1 k2
  let id1 ← st.remaining.get! k1
  let id2 ← st.remaining.get! k2
  if id1 > id2 then pure { cost, id2 := id1, id1 := id2, k1 := k2, k2 := k1, k12 }
  else pure { cost, id2, id1, k1, k2, k12 }

/-- `_push_candidate` (paths.py:551-569). -/
def pushCandidateE (cfg : GCfg) (costE : CostFnE) (st : GSt) (k1 : Finset Nat) (k2s : List (Finset Nat)) : Except PyErr GSt := do
  let cands ← k2s.zipIdx.mapM (fun p => getCandidateE cfg costE st (st.path ++ [[st.queue.length, p.2]]) k1 p.1)
  if cfg.pushAll then pure { st with queue := st.queue ++ cands }
  else match popMin GCand.le cands with
    | none => .error .value
    | some (c, _) => pure { st with queue := st.queue ++ [c] }

/-- The inner loop of the initial candidates (paths.py:662-675). -/
def initPushE (cfg : GCfg) (costE : CostFnE) : List (Finset Nat) → GSt → Except PyErr GSt
  | [], st => .ok st
  | [_], st => .ok st
  | k1 :: k2 :: ks, st => do
    let st ← pushCandidateE cfg costE st k1 (k2 :: ks)
    initPushE cfg costE (k2 :: ks) st

/-- The initial candidates (paths.py:659-675). -/
def initQueueE (cfg : GCfg) (costE : CostFnE) : List Nat → GSt → Except PyErr GSt
  | [], st => .ok st
  | d :: ds, st => do
    let st ← initPushE cfg costE (sortedKeys st.remaining (st.dimKeys d)) st
    initQueueE cfg costE ds st

/-- The new candidates (paths.py:701-716). -/
def pushNewE (cfg : GCfg) (costE : CostFnE) (order : GOrder) (st : GSt) (k1 : Finset Nat) : Except PyErr GSt :=
  let k2s := (k1.biUnion st.dimKeys).erase k1
  if k2s = ∅ then .ok st else pushCandidateE cfg costE st k1 (order.keys st.path k2s)

/-- One iteration of the main loop (paths.py:679-716) with a non-empty queue. -/
def greedyStepE (cfg : GCfg) (costE : CostFnE) (chooser : Chooser) (order : GOrder) (st : GSt) : Except PyErr GSt :=
  match chooser st.path st.queue st.remaining with
  | (none, q) => .ok { st with queue := q }
  | (some c, q) => do
    let st ← contractKeys cfg { st with queue := q } c.k1 c.k2 c.k12
    pushNewE cfg costE order st c.k12

/-- The main loop (paths.py:678-716), with fuel. -/
def greedyLoopE (cfg : GCfg) (costE : CostFnE) (chooser : Chooser) (order : GOrder) : Nat → GSt → Option (Except PyErr GSt)
  | fuel, st =>
    if st.queue = [] then some (.ok st)
    else match fuel with
      | 0 => none
      | fuel + 1 =>
        match greedyStepE cfg costE chooser order st with
        | .error e => some (.error e)
        | .ok st => greedyLoopE cfg costE chooser order fuel st

/-- `ssa_greedy_optimize` (paths.py:598-730). The field `cost` of the configuration is not used. -/
def ssaGreedyE (fuel : Nat) (size : Nat → Nat) (costE : CostFnE) (chooser : Option Chooser) (order : GOrder)
    (inputs : List (Finset Nat)) (output : Finset Nat) : Option (Except PyErr Path) :=
  match inputs with
  | [] => some (.error .type)
  | [_] => some (.ok [[0]])
  | k :: ks =>
    let output := output ∪ ks.foldl (· ∩ ·) k
    let cfg : GCfg := { size, cost := fun _ _ _ _ _ _ _ => 0, output, pushAll := chooser.isSome }
    let st := greedyStart output (k :: ks)
    let dims := st.remaining.keys.foldl (fun s key => s ∪ key \ output) ∅
    match initQueueE cfg costE (order.dims dims) st with
    | .error e => some (.error e)
    | .ok st =>
      match greedyLoopE cfg costE (chooser.getD simpleChooser) order fuel st with
      | none => none
      | some (.error e) => some (.error e)
      | some (.ok st) => some (finalPhase cfg st)

/-- `_trial_greedy_ssa_path_and_cost` (path_random.py:305-323) with what is given as `cost_fn`; `jitter r` stands for the random numbers of
trial `r`. A loop that does not end within the fuel is reported as `StopIteration`. -/
def trialGreedyE (fuel : Nat) (jitter : Nat → CostFn) (arg : CostArg) (chooser : Nat → Option Chooser) (order : GOrder)
    (size : Nat → Nat) (inputs : List (Finset Nat)) (output : Finset Nat) (r : Nat) : Except PyErr Trial :=
  match ssaGreedyE fuel size (arg.resolve (jitter r)) (if r = 0 then none else chooser r) order inputs output with
  | none => .error .stopIteration
  | some (.error e) => .error e
  | some (.ok path) => match ssaPathCost size path inputs output with
    | .error e => .error e
    | .ok (c, s) => .ok { path, cost := c, size := s }

/-- `_assess_candidate` (paths.py:413-452); the cost function is called last. -/
def assessE (cfg : BBCfg) (costE : CostFnE) (size : Nat → Nat) (output : Finset Nat) (mem : Option Nat) (order : SetOrder) (nd : SearchNode) (sz : Nat)
    (st : BBSt) (ij : Nat × Nat) : Except PyErr (Option Cand × BBSt) :=
  let k1 := nd.inputs.getD ij.1 ∅
  let k2 := nd.inputs.getD ij.2 ∅
  let r := cached st.cache (k1, k2) (calcK12 size nd.inputs output nd.remaining ij.1 ij.2)
  let st := { st with cache := r.2 }
  let newFlops := nd.flops + r.1.2
  let newSize := max sz (sizeOf size r.1.1)
  if better cfg.bySize (WithTop.some newFlops) (WithTop.some newSize) st.flops st.size then
    match progressStep cfg.cutoff st.progress nd.inputs.length newFlops with
    | none => .ok (none, st)
    | some progress =>
      match assessFit size output mem order nd { st with progress }
          { cost := 0, flops12 := r.1.2, newFlops, newSize, i := ij.1, j := ij.2, k12 := r.1.1 } with
      | (none, st) => .ok (none, st)
      | (some c, st) =>
        match costE (nd.path ++ [[ij.1, ij.2]]) (sizeOf size r.1.1) (sizeOf size k1) (sizeOf size k2) r.1.1 k1 k2 with
        | .error e => .error e
        | .ok cost => .ok (some { c with cost }, st)
  else .ok (none, st)

/-- One loop over pairs (paths.py:456-467, 471-477). -/
def assessAllE (cfg : BBCfg) (costE : CostFnE) (size : Nat → Nat) (output : Finset Nat) (mem : Option Nat) (order : SetOrder) (nd : SearchNode) (sz : Nat) :
    List (Nat × Nat) → List Cand × BBSt → Except PyErr (List Cand × BBSt)
  | [], acc => .ok acc
  | ij :: l, acc =>
    match assessE cfg costE size output mem order nd sz acc.2 ij with
    | .error e => .error e
    | .ok r => assessAllE cfg costE size output mem order nd sz l (acc.1 ++ r.1.toList, r.2)

/-- The candidates (paths.py:454-477). -/
def candidatesE (cfg : BBCfg) (costE : CostFnE) (size : Nat → Nat) (output : Finset Nat) (mem : Option Nat) (order : SetOrder) (nd : SearchNode) (sz : Nat)
    (st : BBSt) : Except PyErr (List Cand × BBSt) :=
  let pairs := (combinations2 (order nd.path nd.remaining)).map orient
  match assessAllE cfg costE size output mem order nd sz
      (pairs.filter (fun ij => ¬ Disjoint (nd.inputs.getD ij.1 ∅) (nd.inputs.getD ij.2 ∅))) ([], st) with
  | .error e => .error e
  | .ok first => if first.1 = [] then assessAllE cfg costE size output mem order nd sz pairs first else .ok first

/-- `_branch_iterate` (paths.py:405-490), with fuel for the depth of the recursion. -/
def branchIterE (cfg : BBCfg) (costE : CostFnE) (size : Nat → Nat) (output : Finset Nat) (mem : Option Nat) (order : SetOrder) :
    Nat → SearchNode → Nat → BBSt → Option (Except PyErr BBSt)
  | fuel, nd, sz, st =>
    if nd.remaining.card = 1 then some (.ok { st with size := sz, flops := nd.flops, path := some nd.path })
    else match fuel with
      | 0 => none
      | fuel + 1 =>
        match candidatesE cfg costE size output mem order nd sz st with
        | .error e => some (.error e)
        | .ok r => visitNone (fun c => branchIterE cfg costE size output mem order fuel (nd.child c.i c.j c.k12 c.newFlops) c.newSize)
            (visited cfg.nbranch r.1) r.2

/-- `branch` (paths.py:497-510): a call of a new instance (paths.py:373-494) with a cost function that may raise. The field `cost` of the
options is not used. -/
def branchE (cfg : BBCfg) (costE : CostFnE) (fuel : Nat) (size : Nat → Nat) (mem : Option Nat) (order : SetOrder) (inputs : List (Finset Nat))
    (output : Finset Nat) : Option (Except PyErr Path) :=
  if cfg.nbranch = some 0 then some (.error .value)
  else (branchIterE cfg costE size output mem order fuel (rootNode inputs) 0 BBSt.fresh).map (fun r =>
    match r with
    | .error e => .error e
    | .ok st =>
      match st.path with
      | none => .error .key
      | some p => ssaToLinear p)

end OE.Paths
