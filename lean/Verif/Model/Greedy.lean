import Verif.Model.Branch

/-!
# Model of `opt_einsum/paths.py`: `ssa_greedy_optimize` and its helpers, `greedy`

Heaps are bags from which a smallest element is taken. `footprints[k]` is the size of `k`, computed when needed.
-/

namespace OE.Paths
open OE OE.Py

/-- `heapq.heappop`: a smallest element and the rest. -/
def popMin {α : Type} (le : α → α → Bool) : List α → Option (α × List α)
  | [] => none
  | a :: l =>
    match popMin le l with
    | none => some (a, [])
    | some (b, r) => if le a b then some (a, l) else some (b, a :: r)

/-- A candidate `((cost, id2, id1), k1, k2, k12)` (paths.py:547-548). -/
structure GCand where
  cost : ℚ
  id2 : Nat
  id1 : Nat
  k1 : Finset Nat
  k2 : Finset Nat
  k12 : Finset Nat
  deriving DecidableEq

/-- Comparison of candidates. Python goes on to compare `k1`, `k2`, `k12` if cost and ids agree. -/
def GCand.le (a b : GCand) : Bool :=
  if a.cost ≠ b.cost then a.cost < b.cost
  else if a.id2 ≠ b.id2 then a.id2 < b.id2
  else a.id1 ≤ b.id1

/-- The local variables of `ssa_greedy_optimize`; `dimKeys d` is `dim_to_keys[d]`, `next` the value of the counter `ssa_ids`. -/
structure GSt where
  remaining : Dict (Finset Nat) Nat
  dimKeys : Nat → Finset (Finset Nat)
  ref2 : Finset Nat
  ref3 : Finset Nat
  queue : List GCand
  path : Path
  next : Nat

/-- What does not change: sizes, cost function, `output` (with the labels common to all inputs), `push_all`. -/
structure GCfg where
  size : Nat → Nat
  cost : CostFn
  output : Finset Nat
  pushAll : Bool

/-- `_get_candidate` (paths.py:521-548); `seed` as in `CostFn`. -/
def getCandidate (cfg : GCfg) (st : GSt) (seed : Path) (k1 k2 : Finset Nat) : Except PyErr GCand := do
  let either := k1 ∪ k2
  let two := k1 ∩ k2
  let one := either \ two
  let k12 := (either ∩ cfg.output) ∪ (two ∩ st.ref3) ∪ (one ∩ st.ref2)
  let cost := cfg.cost seed (sizeOf cfg.size k12) (sizeOf cfg.size k1) (sizeOf cfg.size k2) k12 k1 k2
  let id1 ← st.remaining.get! k1
  let id2 ← st.remaining.get! k2
  if id1 > id2 then pure { cost, id2 := id1, id1 := id2, k1 := k2, k2 := k1, k12 }
  else pure { cost, id2, id1, k1, k2, k12 }

/-- `_push_candidate` (paths.py:551-569). -/
def pushCandidate (cfg : GCfg) (st : GSt) (k1 : Finset Nat) (k2s : List (Finset Nat)) : Except PyErr GSt := do
  let cands ← k2s.zipIdx.mapM (fun p => getCandidate cfg st (st.path ++ [[st.queue.length, p.2]]) k1 p.1)
  if cfg.pushAll then pure { st with queue := st.queue ++ cands }
  else match popMin GCand.le cands with
    | none => .error .value
    | some (c, _) => pure { st with queue := st.queue ++ [c] }

/-- `_update_ref_counts` (paths.py:572-587). The labels are independent of each other, so all are updated at once. -/
def updateRefs (dimKeys : Nat → Finset (Finset Nat)) (ref2 ref3 dims : Finset Nat) : Finset Nat × Finset Nat :=
  (ref2 \ dims ∪ dims.filter (fun d => 2 ≤ (dimKeys d).card), ref3 \ dims ∪ dims.filter (fun d => 3 ≤ (dimKeys d).card))

/-- `for dim in key - output: dim_to_keys[dim].remove(key)` (paths.py:686-689); `KeyError` if it is missing somewhere. -/
def removeKey (dimKeys : Nat → Finset (Finset Nat)) (output key : Finset Nat) : Except PyErr (Nat → Finset (Finset Nat)) :=
  if ∀ d ∈ key \ output, key ∈ dimKeys d then .ok (fun d => if d ∈ key \ output then (dimKeys d).erase key else dimKeys d)
  else .error .key

/-- `for dim in key - output: dim_to_keys[dim].add(key)` (paths.py:644-646, 694-695). -/
def addKey (dimKeys : Nat → Finset (Finset Nat)) (output key : Finset Nat) : Nat → Finset (Finset Nat) :=
  fun d => if d ∈ key \ output then insert key (dimKeys d) else dimKeys d

/-- Deduplication (paths.py:635-640): `key` is the input number `i`. -/
def dedupStep (st : GSt) (key : Finset Nat) (i : Nat) : GSt :=
  match st.remaining.get? key with
  | some id => { st with path := st.path ++ [[id, i]], remaining := st.remaining.set key st.next, next := st.next + 1 }
  | none => { st with remaining := st.remaining.set key i }

/-- The loop of the deduplication. -/
def dedupLoop : List (Finset Nat) → Nat → GSt → GSt
  | [], _, st => st
  | key :: ks, i, st => dedupLoop ks (i + 1) (dedupStep st key i)

/-- `sorted(dim_keys, key=remaining.__getitem__)` (paths.py:661); `dim_keys` are keys of `remaining`. -/
def sortedKeys (remaining : Dict (Finset Nat) Nat) (keys : Finset (Finset Nat)) : List (Finset Nat) :=
  ((remaining.filter (fun p => p.1 ∈ keys)).insertionSort (fun a b => a.2 ≤ b.2)).map Prod.fst

/-- The inner loop of the initial candidates (paths.py:662-675) over `dim_keys_list`. -/
def initPush (cfg : GCfg) : List (Finset Nat) → GSt → Except PyErr GSt
  | [], st => .ok st
  | [_], st => .ok st
  | k1 :: k2 :: ks, st => do
    let st ← pushCandidate cfg st k1 (k2 :: ks)
    initPush cfg (k2 :: ks) st

/-- The initial candidates (paths.py:659-675) over the labels in the given order. -/
def initQueue (cfg : GCfg) : List Nat → GSt → Except PyErr GSt
  | [], st => .ok st
  | d :: ds, st => do
    let st ← initPush cfg (sortedKeys st.remaining (st.dimKeys d)) st
    initQueue cfg ds st

/-- A chooser: from the queue and the remaining terms (and, for randomness, the path so far) to its choice and the new queue. -/
abbrev Chooser := Path → List GCand → Dict (Finset Nat) Nat → Option GCand × List GCand

/-- `_simple_chooser` (paths.py:590-595). -/
def simpleChooser : Chooser := fun _ queue remaining =>
  match popMin GCand.le queue with
  | none => (none, queue)
  | some (c, q) => if remaining.has c.k1 ∧ remaining.has c.k2 then (some c, q) else (none, q)

/-- The iteration orders that can influence a run: of the labels of `dim_to_keys`, and of the sets `k2s`. -/
structure GOrder where
  dims : Finset Nat → List Nat
  keys : Path → Finset (Finset Nat) → List (Finset Nat)

/-- `remaining.pop(k)`. -/
def popKey (remaining : Dict (Finset Nat) Nat) (k : Finset Nat) : Except PyErr (Nat × Dict (Finset Nat) Nat) :=
  match remaining.get? k with
  | some id => .ok (id, remaining.del k)
  | none => .error .key

/-- Contracting `k1` and `k2` into `k12` (paths.py:684-698). -/
def contractKeys (cfg : GCfg) (st : GSt) (k1 k2 k12 : Finset Nat) : Except PyErr GSt := do
  let (id1, remaining) ← popKey st.remaining k1
  let (id2, remaining) ← popKey remaining k2
  let dimKeys ← removeKey st.dimKeys cfg.output k1
  let dimKeys ← removeKey dimKeys cfg.output k2
  let path := st.path ++ [[id1, id2]]
  let st := match remaining.get? k12 with
    | some id => { st with path := path ++ [[id, st.next]], dimKeys, next := st.next + 2, remaining := remaining.set k12 (st.next + 1) }
    | none => { st with path, dimKeys := addKey dimKeys cfg.output k12, next := st.next + 1, remaining := remaining.set k12 st.next }
  let refs := updateRefs st.dimKeys st.ref2 st.ref3 (k1 ∪ (k2 \ cfg.output))
  pure { st with ref2 := refs.1, ref3 := refs.2 }

/-- The new candidates (paths.py:701-716). -/
def pushNew (cfg : GCfg) (order : GOrder) (st : GSt) (k1 : Finset Nat) : Except PyErr GSt :=
  let k2s := (k1.biUnion st.dimKeys).erase k1
  if k2s = ∅ then .ok st else pushCandidate cfg st k1 (order.keys st.path k2s)

/-- One iteration of the main loop (paths.py:679-716) with a non-empty queue. -/
def greedyStep (cfg : GCfg) (chooser : Chooser) (order : GOrder) (st : GSt) : Except PyErr GSt :=
  match chooser st.path st.queue st.remaining with
  | (none, q) => .ok { st with queue := q }
  | (some c, q) => do
    let st ← contractKeys cfg { st with queue := q } c.k1 c.k2 c.k12
    pushNew cfg order st c.k12

/-- The main loop (paths.py:678-716), with fuel; `none` if it does not suffice. -/
def greedyLoop (cfg : GCfg) (chooser : Chooser) (order : GOrder) : Nat → GSt → Option (Except PyErr GSt)
  | fuel, st =>
    if st.queue = [] then some (.ok st)
    else match fuel with
      | 0 => none
      | fuel + 1 =>
        match greedyStep cfg chooser order st with
        | .error e => some (.error e)
        | .ok st => greedyLoop cfg chooser order fuel st

/-- An entry `(cost, ssa_id, key)` of the final queue (paths.py:719). -/
structure FEntry where
  cost : Nat
  id : Nat
  key : Finset Nat
  deriving DecidableEq

/-- Comparison of the entries, whose ids are distinct. -/
def FEntry.le (a b : FEntry) : Bool := if a.cost ≠ b.cost then a.cost < b.cost else a.id ≤ b.id

/-- The loop of outer products (paths.py:722-728): `cur` is `ssa_id1, k1`; the counter bounds the length of the queue. -/
def finalLoop (cfg : GCfg) : Nat → FEntry → List FEntry → Nat → Path → Path
  | 0, _, _, _, path => path
  | n + 1, cur, queue, next, path =>
    match popMin FEntry.le queue with
    | none => path
    | some (e, q) =>
      let k12 := (cur.key ∪ e.key) ∩ cfg.output
      let new : FEntry := { cost := sizeOf cfg.size k12, id := next, key := k12 }
      match popMin FEntry.le (new :: q) with
      | none => path
      | some (cur', q') => finalLoop cfg n cur' q' (next + 1) (path ++ [[min cur.id e.id, max cur.id e.id]])

/-- The final outer products (paths.py:719-728). `heappop` of an empty heap is an `IndexError`. -/
def finalPhase (cfg : GCfg) (st : GSt) : Except PyErr Path :=
  match popMin FEntry.le (st.remaining.map (fun p => { cost := sizeOf cfg.size (p.1 ∩ cfg.output), id := p.2, key := p.1 })) with
  | none => .error .index
  | some (e, q) => .ok (finalLoop cfg q.length e q st.next st.path)

/-- The state before the main loop, without queue (paths.py:632-653). -/
def greedyStart (output : Finset Nat) (inputs : List (Finset Nat)) : GSt :=
  let st := dedupLoop inputs 0 { remaining := [], dimKeys := fun _ => ∅, ref2 := ∅, ref3 := ∅, queue := [], path := [], next := inputs.length }
  let dimKeys := (st.remaining.keys).foldl (fun d key => addKey d output key) st.dimKeys
  let dims := (st.remaining.keys.foldl (fun s key => s ∪ key \ output) ∅ : Finset Nat)
  { st with
    dimKeys
    ref2 := dims.filter (fun d => 2 ≤ (dimKeys d).card) \ output
    ref3 := dims.filter (fun d => 3 ≤ (dimKeys d).card) \ output }

/-- `ssa_greedy_optimize` (paths.py:598-730) for a non-empty list of inputs. `chooser` is `none` for the default. -/
def ssaGreedy (fuel : Nat) (size : Nat → Nat) (cost : CostFn) (chooser : Option Chooser) (order : GOrder)
    (inputs : List (Finset Nat)) (output : Finset Nat) : Option (Except PyErr Path) :=
  match inputs with
  | [] => some (.error .type)
  | [_] => some (.ok [[0]])
  | k :: ks =>
    let output := output ∪ ks.foldl (· ∩ ·) k
    let cfg : GCfg := { size, cost, output, pushAll := chooser.isSome }
    let st := greedyStart output (k :: ks)
    let dims := st.remaining.keys.foldl (fun s key => s ∪ key \ output) ∅
    match initQueue cfg (order.dims dims) st with
    | .error e => some (.error e)
    | .ok st =>
      match greedyLoop cfg (chooser.getD simpleChooser) order fuel st with
      | none => none
      | some (.error e) => some (.error e)
      | some (.ok st) => some (finalPhase cfg st)

/-- `greedy` (paths.py:733-774). With a memory limit it runs `branch` with one branch, all other options at their defaults. -/
def greedy (fuel : Nat) (size : Nat → Nat) (mem : Option Nat) (cost : CostFn) (chooser : Option Chooser) (order : GOrder)
    (setOrder : SetOrder) (inputs : List (Finset Nat)) (output : Finset Nat) : Option (Except PyErr Path) :=
  match mem with
  | some m => branch { nbranch := some 1, cutoff := 4, bySize := false, cost } fuel size (some m) setOrder inputs output
  | none =>
    match ssaGreedy fuel size cost chooser order inputs output with
    | none => none
    | some (.error e) => some (.error e)
    | some (.ok p) => some (ssaToLinear p)

end OE.Paths
