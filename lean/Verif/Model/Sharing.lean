import Verif.Model.Contract

/-!
# Sharing of intermediates (opt_einsum/sharing.py:91-216) and `_core_contract` under sharing

Arrays are objects with an identity (`id(...)`, a natural number). An identity may be given to a new array as soon as no variable of
the program, no local variable of the running call and no living cache refers to the old one: `alloc` chooses the identity of every
new array, it is an arbitrary function of the number of earlier allocations and of the identities in use.

The contents of arrays are values: programs do not write into arrays after creating them (`Model/SharingWrites.lean`
adds writes, `out=` is treated in `Model/Out.lean`).
One thread is modelled; `Model/SharingStack.lean` treats threads. The backends differ in whether they have `einsum`; their
functions are those of `Model/Tensor.lean`.
-/

namespace OE.Share
open OE OE.Py OE.Parser OE.Contract

/-- The keys of a cache: `("tensor", id)` (sharing.py:97), `("transpose", backend, id, axes)` (126),
`("tensordot", backend, id, id, axes)` (150), `("einsum", backend, canonical_equation, canonical_ids)` (180) and
`(to_backend.__name__, id)` or `(to_backend.__name__, id, constant)` (202, 213). -/
inductive Key
  | tensor (id : Nat)
  | transpose (backend : Str) (id : Nat) (axes : List Nat)
  | tensordot (backend : Str) (x y : Nat) (axes : List Nat × List Nat)
  | einsum (backend : Str) (equation : Str) (ids : List Nat)
  | convert (name : Str) (id : Nat) (constant : Option Bool)
  deriving DecidableEq

/-- A cache: the dictionary yielded by `shared_intermediates`; values are references to arrays. -/
abbrev Cache := Dict Key Nat

/-- The state of the program. -/
structure World (R : Type) where
  /-- the contents of the array with a given identity -/
  heap : Nat → Tensor R
  /-- the arrays that the program holds -/
  roots : List Nat
  /-- the caches alive, by name -/
  caches : Dict Nat Cache
  /-- the caches of the open sharing contexts, innermost first -/
  stack : List Nat
  /-- the name of the next cache -/
  nextCache : Nat
  /-- number of arrays created -/
  clock : Nat
  /-- number of backend functions executed -/
  execs : Nat

/-- What the calls depend on: which backends lack `einsum`, the conversions to backends (by `to_backend.__name__` and the
`constant` argument), and the choice of identities. -/
structure Env (R : Type) where
  noEinsum : Str → Bool
  conv : Str → Option Bool → Tensor R → Tensor R
  alloc : Nat → List Nat → Nat

/-- The identities in use. -/
def inUse {R : Type} (w : World R) : List Nat := w.roots ++ w.caches.flatMap (fun c => c.2.map Prod.snd)

/-- A computation that may raise; the state is kept when it does. -/
abbrev M (R α : Type) := World R → Except PyErr α × World R

/-- Sequencing: an exception skips the rest. -/
def M.andThen {R α β : Type} (m : M R α) (f : α → M R β) : M R β := fun w =>
  match m w with
  | (.ok a, w') => f a w'
  | (.error e, w') => (.error e, w')

variable {R : Type}

/-- A new array with contents `T`; `locals` are the arrays that local variables of the running call refer to. -/
def store (E : Env R) (locs : List Nat) (T : Tensor R) : M R Nat := fun w =>
  let a := E.alloc w.clock (locs ++ inUse w)
  (.ok a, { w with heap := fun x => if x = a then T else w.heap x, clock := w.clock + 1 })

/-- A backend function is executed; its result `r` is a new array. -/
def runFn (E : Env R) (locs : List Nat) (r : Except PyErr (Tensor R)) : M R Nat := fun w =>
  match r with
  | .ok T => store E locs T { w with execs := w.execs + 1 }
  | .error e => (.error e, { w with execs := w.execs + 1 })

/-- `get_sharing_cache()` (sharing.py:38-40), given that the stack is not empty. -/
def cacheOf (w : World R) (c : Nat) : Cache := (w.caches.get? c).getD []

/-- `cache[key] = value`. -/
def putCache (c : Nat) (k : Key) (a : Nat) (w : World R) : World R :=
  { w with caches := w.caches.set c ((cacheOf w c).set k a) }

/-- `_save_tensors` (sharing.py:91-97). -/
def saveTensors (c : Nat) (ids : List Nat) (w : World R) : World R :=
  ids.foldl (fun w i => putCache c (.tensor i) i w) w

/-- `_memoize` (sharing.py:100-110); `run` is the call of the wrapped function. -/
def memoize (c : Nat) (key : Key) (run : M R Nat) : M R Nat := fun w =>
  match (cacheOf w c).get? key with
  | some a => (.ok a, w)
  | none =>
    match run w with
    | (.ok a, w') => (.ok a, putCache c key a w')
    | (.error e, w') => (.error e, w')

/-- `_transpose` with its wrapper (sharing.py:113-129, contract.py:459-463). -/
def transpose (E : Env R) (locs : List Nat) (backend : Str) (a : Nat) (axes : List Nat) : M R Nat := fun w =>
  match w.stack with
  | [] => runFn E locs (npTranspose (w.heap a) axes) w
  | c :: _ =>
    memoize c (.transpose backend a axes) (fun w => runFn E locs (npTranspose (w.heap a) axes) w) (saveTensors c [a] w)

variable [CommSemiring R]

/-- `_tensordot` with its wrapper for a pair of axis tuples, the form that `_core_contract` uses (sharing.py:132-153,
contract.py:466-470). -/
def tensordot (E : Env R) (locs : List Nat) (backend : Str) (x y : Nat) (axes : List Nat × List Nat) : M R Nat := fun w =>
  match w.stack with
  | [] => runFn E locs (npTensordot (w.heap x) (w.heap y) axes.1 axes.2) w
  | c :: _ =>
    memoize c (.tensordot backend x y axes) (fun w => runFn E locs (npTensordot (w.heap x) (w.heap y) axes.1 axes.2) w)
      (saveTensors c [x, y] w)

/-- The canonical equation and identities (sharing.py:175-178). -/
def canonicalKey (inputs : List Str) (output : Str) (ids : List Nat) : Str × List Nat :=
  let canonical := sortedBy Prod.snd (inputs.zip ids)
  (alphaCanonicalize (einsumStrOf (canonical.map Prod.fst) output), canonical.map Prod.snd)

/-- `_einsum` with its wrapper (sharing.py:156-183, contract.py:432-451) for string equations, without `out`. -/
def einsum (E : Env R) (locs : List Nat) (backend : Str) (equation : Str) (ids : List Nat) : M R Nat := fun w =>
  match w.stack with
  | [] => runFn E locs (einsumCall (E.noEinsum backend) equation (ids.map w.heap)) w
  | c :: _ =>
    match parseEinsum equation (ids.map (fun i => (w.heap i).shape)) with
    | .error e => (.error e, w)
    | .ok (inp, out) =>
      let key := canonicalKey (splitOn cComma inp) out ids
      memoize c (.einsum backend key.1 key.2)
        (fun w => runFn E locs (einsumCall (E.noEinsum backend) equation (ids.map w.heap)) w) (saveTensors c ids w)

/-- A `to_backend` conversion with its wrapper (sharing.py:186-216): the converted array is not saved. -/
def convert (E : Env R) (locs : List Nat) (name : Str) (constant : Option Bool) (a : Nat) : M R Nat := fun w =>
  match w.stack with
  | [] => runFn E locs (.ok (E.conv name constant (w.heap a))) w
  | c :: _ => memoize c (.convert name a constant) (fun w => runFn E locs (.ok (E.conv name constant (w.heap a))) w) w

/-- One step of `_core_contract` done with `tensordot` (contract.py:666-692), as `Contract.blasStep`. -/
def blasStep (E : Env R) (locs : List Nat) (backend : Str) (step : Step) (tmp : List Nat) : M R Nat := fun w =>
  match splitArrow step.einsumStr with
  | [inp, resultsIndex] =>
    match splitOn cComma inp with
    | [left, right] =>
      match tmp with
      | [a, b] =>
        let tensorResult := (left ++ right).filter (fun c => c ∉ step.removed)
        M.andThen (tensordot E (locs ++ tmp) backend a b (blasAxes left right step.removed)) (fun view =>
          if tensorResult ≠ resultsIndex then fun w =>
            match transposeAxes tensorResult resultsIndex with
            | .ok perm => transpose E (locs ++ tmp ++ [view]) backend view perm w
            | .error e => (.error e, w)
          else fun w => (.ok view, w)) w
      | _ => (.error .type, w)
    | _ => (.error .value, w)
  | _ => (.error .value, w)

/-- The new operand of one step (contract.py:665-702), as `Contract.stepResult`. -/
def stepResult (E : Env R) (locs : List Nat) (backend : Str) (step : Step) (tmp : List Nat) : M R Nat :=
  if usesBlas (E.noEinsum backend) step.blas then blasStep E locs backend step tmp
  else einsum E (locs ++ tmp) backend step.einsumStr tmp

/-- The loop of `_core_contract` (contract.py:651-706), as `Contract.coreLoop`; `args` are the arguments, which the caller keeps. -/
def coreLoop (E : Env R) (args : List Nat) (backend : Str) : List Step → List Nat → M R (List Nat)
  | [], ops => fun w => (.ok ops, w)
  | s :: ss, ops => fun w =>
    match popAll s.inds ops with
    | .error e => (.error e, w)
    | .ok (tmp, rest) =>
      M.andThen (stepResult E (args ++ rest) backend s tmp) (fun view => coreLoop E args backend ss (rest ++ [view])) w

/-- `_core_contract` (contract.py:631-711), as `Contract.coreContract`. -/
def coreContract (E : Env R) (backend : Str) (steps : List Step) (ops : List Nat) : M R Nat :=
  M.andThen (coreLoop E ops backend steps ops) (fun ops' w =>
    match ops' with
    | a :: _ => (.ok a, w)
    | [] => (.error .index, w))

/-- `contract(subscripts, *ops, ...)` (contract.py:502-603), as `Contract.contract`. With `optimize=False` the `backend` argument is not
passed on: `_einsum` runs with its default, numpy (contract.py:584). -/
def contract (E : Env R) (backend : Str) (subscripts : Str) (ops : List Nat) (opt : Optimize) (mem : MemLimit) (useBlas : Bool) :
    M R Nat := fun w =>
  match opt with
  | .off => einsum E ops (S "numpy") subscripts ops w
  | _ =>
    match parseEinsum subscripts (ops.map (fun i => (w.heap i).shape)) with
    | .error e => (.error e, w)
    | .ok (inp, out) =>
      match contractPath (splitOn cComma inp) out (ops.map (fun i => (w.heap i).shape)) opt mem useBlas with
      | .error e => (.error e, w)
      | .ok info => coreContract E backend info.contractionList ops w

/-- What a program does. -/
inductive Event (R : Type)
  /-- create an array -/
  | new (T : Tensor R)
  /-- forget an array -/
  | drop (a : Nat)
  /-- enter `shared_intermediates()`, or `shared_intermediates(cache)` with a cache kept from before -/
  | enter (cache : Option Nat)
  /-- leave the innermost context -/
  | leave
  /-- forget a cache -/
  | dropCache (cache : Nat)
  | transpose (backend : Str) (a : Nat) (axes : List Nat)
  | tensordot (backend : Str) (x y : Nat) (axes : List Nat × List Nat)
  | einsum (backend : Str) (equation : Str) (ids : List Nat)
  | contract (backend : Str) (subscripts : Str) (ids : List Nat) (opt : Optimize) (mem : MemLimit) (useBlas : Bool)
  | convert (name : Str) (constant : Option Bool) (a : Nat)

/-- The program can do this: it holds the arrays it passes, has a context to leave, and only forgets caches that no open context
uses. -/
def Possible (w : World R) : Event R → Prop
  | .new _ => True
  | .drop _ => True
  | .enter none => True
  | .enter (some c) => c ∈ w.caches.keys
  | .leave => w.stack ≠ []
  | .dropCache c => c ∉ w.stack
  | .transpose _ a _ => a ∈ w.roots
  | .tensordot _ x y _ => x ∈ w.roots ∧ y ∈ w.roots
  | .einsum _ _ ids => ∀ i ∈ ids, i ∈ w.roots
  | .contract _ _ ids _ _ _ => ∀ i ∈ ids, i ∈ w.roots
  | .convert _ _ a => a ∈ w.roots

/-- A call made by the program; the program holds the result. -/
def keep (m : M R Nat) : M R Nat := fun w =>
  match m w with
  | (.ok a, w') => (.ok a, { w' with roots := a :: w'.roots })
  | r => r

/-- The call of an event, if it is one. -/
def callOf (E : Env R) : Event R → Option (M R Nat)
  | .transpose b a axes => some (transpose E [] b a axes)
  | .tensordot b x y axes => some (tensordot E [] b x y axes)
  | .einsum b eq ids => some (einsum E [] b eq ids)
  | .contract b s ids opt mem ub => some (contract E b s ids opt mem ub)
  | .convert n k a => some (convert E [] n k a)
  | _ => none

/-- One event. -/
def step (E : Env R) (w : World R) : Event R → World R
  | .new T => (keep (store E [] T) w).2
  | .drop a => { w with roots := w.roots.filter (· ≠ a) }
  | .enter none => { w with caches := w.caches.set w.nextCache [], stack := w.nextCache :: w.stack, nextCache := w.nextCache + 1 }
  | .enter (some c) => { w with stack := c :: w.stack }
  | .leave => { w with stack := w.stack.tail }
  | .dropCache c => { w with caches := w.caches.del c }
  | e => match callOf E e with
    | some m => (keep m w).2
    | none => w

/-- The states that a program can reach when it only does what `P` permits. -/
inductive ReachableBy (E : Env R) (P : World R → Event R → Prop) : World R → Prop
  | init (heap : Nat → Tensor R) :
      ReachableBy E P { heap, roots := [], caches := [], stack := [], nextCache := 0, clock := 0, execs := 0 }
  | step {w : World R} (e : Event R) : ReachableBy E P w → Possible w e → P w e → ReachableBy E P (step E w e)

/-- The states that a program can reach from `w` when it only does what `P` permits. -/
inductive LaterBy (E : Env R) (P : World R → Event R → Prop) (w : World R) : World R → Prop
  | refl : LaterBy E P w w
  | step {w' : World R} (e : Event R) : LaterBy E P w w' → Possible w' e → P w' e → LaterBy E P w (step E w' e)

end OE.Share
