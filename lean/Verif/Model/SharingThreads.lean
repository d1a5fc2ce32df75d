import Verif.Model.Sharing

/-!
# Several threads that share caches (opt_einsum/sharing.py:43-216)

`shared_intermediates(cache)` may be entered by several threads with the same dictionary. The stack of caches is kept per thread
(sharing.py:16-53, treated in `Model/SharingStack.lean`), so threads meet only in the dictionaries and in the arrays. A call is a program of
atomic actions: one access to a dictionary, the execution of one backend function, or reading the shapes of arrays (which do not change).
Between two actions of a thread the others may do anything.

Every action names the arrays that local variables of the call refer to while it is pending: they are not collected.
-/

namespace OE.ShareThreads
open OE OE.Py OE.Parser OE.Contract OE.Share

/-- The rest of a call. -/
inductive Prog (R : Type)
  /-- the call returns or raises -/
  | ret (o : Except PyErr Nat)
  /-- `cache[k] = a` -/
  | put (locs : List Nat) (c : Nat) (k : Key) (a : Nat) (next : Prog R)
  /-- `k in cache` -/
  | has (locs : List Nat) (c : Nat) (k : Key) (next : Bool → Prog R)
  /-- `cache[k]` -/
  | get (locs : List Nat) (c : Nat) (k : Key) (next : Nat → Prog R)
  /-- the shapes of arrays -/
  | look (locs ids : List Nat) (next : List Shape → Prog R)
  /-- a backend function is executed, its result is a new array -/
  | run (locs : List Nat) (f : (Nat → Tensor R) → Except PyErr (Tensor R)) (next : Nat → Prog R)

variable {R : Type}

/-- The arrays that the local variables of a call refer to. -/
def Prog.locs : Prog R → List Nat
  | .ret (.ok a) => [a]
  | .ret (.error _) => []
  | .put locs .. => locs
  | .has locs .. => locs
  | .get locs .. => locs
  | .look locs .. => locs
  | .run locs .. => locs

/-- `_save_tensors` (sharing.py:91-97). -/
def saveTensors (locs : List Nat) (c : Nat) (ids : List Nat) (k : Prog R) : Prog R :=
  ids.foldr (fun i p => .put locs c (.tensor i) i p) k

/-- `_memoize` (sharing.py:100-110); `f` is the wrapped function. -/
def memoize (locs : List Nat) (c : Nat) (key : Key) (f : (Nat → Tensor R) → Except PyErr (Tensor R)) (k : Nat → Prog R) : Prog R :=
  .has locs c key fun b =>
    if b then .get locs c key k
    else .run locs f fun a => .put (a :: locs) c key a (k a)

/-- `_transpose` with its wrapper (sharing.py:113-129, contract.py:459-463). `stack` is the stack of caches of the thread. -/
def transpose (locs stack : List Nat) (backend : Str) (a : Nat) (axes : List Nat) (k : Nat → Prog R) : Prog R :=
  match stack with
  | [] => .run locs (fun h => npTranspose (h a) axes) k
  | c :: _ => saveTensors locs c [a] (memoize locs c (.transpose backend a axes) (fun h => npTranspose (h a) axes) k)

/-- A `to_backend` conversion with its wrapper (sharing.py:186-216). -/
def convert (E : Env R) (locs stack : List Nat) (name : Str) (constant : Option Bool) (a : Nat) (k : Nat → Prog R) : Prog R :=
  match stack with
  | [] => .run locs (fun h => .ok (E.conv name constant (h a))) k
  | c :: _ => memoize locs c (.convert name a constant) (fun h => .ok (E.conv name constant (h a))) k

variable [CommSemiring R]

/-- `_tensordot` with its wrapper (sharing.py:132-153, contract.py:466-470). -/
def tensordot (locs stack : List Nat) (backend : Str) (x y : Nat) (axes : List Nat × List Nat) (k : Nat → Prog R) : Prog R :=
  match stack with
  | [] => .run locs (fun h => npTensordot (h x) (h y) axes.1 axes.2) k
  | c :: _ =>
    saveTensors locs c [x, y]
      (memoize locs c (.tensordot backend x y axes) (fun h => npTensordot (h x) (h y) axes.1 axes.2) k)

/-- `_einsum` with its wrapper (sharing.py:156-183, contract.py:432-451) for string equations, without `out`. -/
def einsum (E : Env R) (locs stack : List Nat) (backend : Str) (equation : Str) (ids : List Nat) (k : Nat → Prog R) : Prog R :=
  match stack with
  | [] => .run locs (fun h => einsumCall (E.noEinsum backend) equation (ids.map h)) k
  | c :: _ =>
    .look locs ids fun shapes =>
      match parseEinsum equation shapes with
      | .error e => .ret (.error e)
      | .ok (inp, out) =>
        let key := canonicalKey (splitOn cComma inp) out ids
        saveTensors locs c ids
          (memoize locs c (.einsum backend key.1 key.2) (fun h => einsumCall (E.noEinsum backend) equation (ids.map h)) k)

/-- One step of `_core_contract` done with `tensordot` (contract.py:666-692). -/
def blasStep (locs stack : List Nat) (backend : Str) (step : Step) (tmp : List Nat) (k : Nat → Prog R) : Prog R :=
  match splitArrow step.einsumStr with
  | [inp, resultsIndex] =>
    match splitOn cComma inp with
    | [left, right] =>
      match tmp with
      | [a, b] =>
        let tensorResult := (left ++ right).filter (fun c => c ∉ step.removed)
        tensordot (locs ++ tmp) stack backend a b (blasAxes left right step.removed) fun view =>
          if tensorResult ≠ resultsIndex then
            match transposeAxes tensorResult resultsIndex with
            | .ok perm => transpose (locs ++ tmp ++ [view]) stack backend view perm k
            | .error e => .ret (.error e)
          else k view
      | _ => .ret (.error .type)
    | _ => .ret (.error .value)
  | _ => .ret (.error .value)

/-- The new operand of one step (contract.py:665-702). -/
def stepResult (E : Env R) (locs stack : List Nat) (backend : Str) (step : Step) (tmp : List Nat) (k : Nat → Prog R) : Prog R :=
  if usesBlas (E.noEinsum backend) step.blas then blasStep locs stack backend step tmp k
  else einsum E (locs ++ tmp) stack backend step.einsumStr tmp k

/-- The loop of `_core_contract` (contract.py:651-706). -/
def coreLoop (E : Env R) (args stack : List Nat) (backend : Str) : List Step → List Nat → (List Nat → Prog R) → Prog R
  | [], ops, k => k ops
  | s :: ss, ops, k =>
    match popAll s.inds ops with
    | .error e => .ret (.error e)
    | .ok (tmp, rest) =>
      stepResult E (args ++ rest) stack backend s tmp fun view => coreLoop E args stack backend ss (rest ++ [view]) k

/-- `_core_contract` (contract.py:631-711). -/
def coreContract (E : Env R) (stack : List Nat) (backend : Str) (steps : List Step) (ops : List Nat) (k : Nat → Prog R) : Prog R :=
  coreLoop E ops stack backend steps ops fun ops' =>
    match ops' with
    | a :: _ => k a
    | [] => .ret (.error .index)

/-- `contract(subscripts, *ops, ...)` (contract.py:502-603). -/
def contract (E : Env R) (stack : List Nat) (backend : Str) (subscripts : Str) (ops : List Nat) (opt : Optimize) (mem : MemLimit)
    (useBlas : Bool) (k : Nat → Prog R) : Prog R :=
  match opt with
  | .off => einsum E ops stack (S "numpy") subscripts ops k
  | _ =>
    .look ops ops fun shapes =>
      match parseEinsum subscripts shapes with
      | .error e => .ret (.error e)
      | .ok (inp, out) =>
        match contractPath (splitOn cComma inp) out shapes opt mem useBlas with
        | .error e => .ret (.error e)
        | .ok info => coreContract E stack backend info.contractionList ops k

/-- The program of a call; the arguments are local variables of the call. -/
def progOf (E : Env R) (stack : List Nat) : Event R → Option (Prog R)
  | .transpose b a axes => some (transpose [a] stack b a axes fun r => .ret (.ok r))
  | .tensordot b x y axes => some (tensordot [x, y] stack b x y axes fun r => .ret (.ok r))
  | .einsum b eq ids => some (einsum E ids stack b eq ids fun r => .ret (.ok r))
  | .contract b s ids opt mem ub => some (contract E stack b s ids opt mem ub fun r => .ret (.ok r))
  | .convert n c a => some (convert E [a] stack n c a fun r => .ret (.ok r))
  | _ => none

omit [CommSemiring R] in
/-- The next action of a call; `others` are the arrays that the other threads' calls refer to. A missing key raises `KeyError`. -/
def tick (E : Env R) (others : List Nat) : Prog R → World R → Prog R × World R
  | .ret o, w => (.ret o, w)
  | .put _ c k a next, w => (next, putCache c k a w)
  | .has _ c k next, w => (next ((cacheOf w c).get? k).isSome, w)
  | .get _ c k next, w =>
    match (cacheOf w c).get? k with
    | some a => (next a, w)
    | none => (.ret (.error .key), w)
  | .look _ ids next, w => (next (ids.map (fun i => (w.heap i).shape)), w)
  | .run locs f next, w =>
    match runFn E (locs ++ others) (f w.heap) w with
    | (.ok a, w') => (next a, w')
    | (.error e, w') => (.ret (.error e), w')

/-- A call that has begun: its event, the state in which it began (kept for reference) and what is left to do. -/
structure Pending (R : Type) where
  event : Event R
  start : World R
  prog : Prog R

/-- The state of `n` threads. The field `stack` of `World` is not used: every thread has its own. -/
structure Sys (R : Type) (n : Nat) where
  world : World R
  stack : Fin n → List Nat
  call : Fin n → Option (Pending R)

variable {n : Nat}

omit [CommSemiring R] in
/-- The arrays that the running calls of the threads other than `t` refer to. -/
def others (s : Sys R n) (t : Fin n) : List Nat :=
  (List.finRange n).flatMap fun u => if u = t then [] else ((s.call u).map (fun p => p.prog.locs)).getD []

/-- What can happen next. -/
inductive Move (R : Type) (n : Nat)
  /-- thread `t`, not being in a call, does something that is no call, or begins a call -/
  | event (t : Fin n) (e : Event R)
  /-- the call of thread `t` makes its next action -/
  | tick (t : Fin n)
  /-- the call of thread `t` returns, and the program holds the result, or raises -/
  | finish (t : Fin n)

omit [CommSemiring R] in
/-- The arrays passed are held by the program; there is a context to leave; the cache entered exists; no open context of any thread uses a
cache that is forgotten. Calls begin and end one after the other in each thread. -/
def Possible (s : Sys R n) : Move R n → Prop
  | .event t e => s.call t = none ∧
    match e with
    | .new _ => True
    | .drop _ => True
    | .enter none => True
    | .enter (some c) => c ∈ s.world.caches.keys
    | .leave => s.stack t ≠ []
    | .dropCache c => ∀ u, c ∉ s.stack u
    | .transpose _ a _ => a ∈ s.world.roots
    | .tensordot _ x y _ => x ∈ s.world.roots ∧ y ∈ s.world.roots
    | .einsum _ _ ids => ∀ i ∈ ids, i ∈ s.world.roots
    | .contract _ _ ids _ _ _ => ∀ i ∈ ids, i ∈ s.world.roots
    | .convert _ _ a => a ∈ s.world.roots
  | .tick t => (s.call t).isSome
  | .finish t => ∃ p o, s.call t = some p ∧ p.prog = .ret o

/-- One move. -/
def step (E : Env R) (s : Sys R n) : Move R n → Sys R n
  | .event t e =>
    match e with
    | .new T => { s with world := (keep (store E (others s t) T) s.world).2 }
    | .drop a => { s with world := { s.world with roots := s.world.roots.filter (· ≠ a) } }
    | .enter none =>
      { s with
        world := { s.world with caches := s.world.caches.set s.world.nextCache [], nextCache := s.world.nextCache + 1 }
        stack := Function.update s.stack t (s.world.nextCache :: s.stack t) }
    | .enter (some c) => { s with stack := Function.update s.stack t (c :: s.stack t) }
    | .leave => { s with stack := Function.update s.stack t (s.stack t).tail }
    | .dropCache c => { s with world := { s.world with caches := s.world.caches.del c } }
    | e =>
      match progOf E (s.stack t) e with
      | some p => { s with call := Function.update s.call t (some { event := e, start := s.world, prog := p }) }
      | none => s
  | .tick t =>
    match s.call t with
    | some p =>
      let r := tick E (others s t) p.prog s.world
      { s with world := r.2, call := Function.update s.call t (some { p with prog := r.1 }) }
    | none => s
  | .finish t =>
    match s.call t with
    | some p =>
      let world := match p.prog with
        | .ret (.ok a) => { s.world with roots := a :: s.world.roots }
        | _ => s.world
      { s with world, call := Function.update s.call t none }
    | none => s

/-- The states that can be reached by moves that `P` permits, in any interleaving. -/
inductive ReachableBy (E : Env R) (P : Sys R n → Move R n → Prop) : Sys R n → Prop
  | init (heap : Nat → Tensor R) :
      ReachableBy E P
        { world := { heap, roots := [], caches := [], stack := [], nextCache := 0, clock := 0, execs := 0 }
          stack := fun _ => []
          call := fun _ => none }
  | step {s : Sys R n} (m : Move R n) : ReachableBy E P s → Possible s m → P s m → ReachableBy E P (step E s m)

end OE.ShareThreads
