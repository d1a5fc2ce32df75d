import Verif.Model.Sharing

/-!
# Writes into arrays while caches are alive (opt_einsum/sharing.py:91-216)

The keys of a cache hold the identities of the operands (sharing.py:97, 126, 150, 180, 202, 213), not their contents. This file adds to the
events of `Model/Sharing.lean` that the user's program writes into arrays (`x[...] = v`, `x += v`, `np.copyto(x, v)`); the shapes stay.

Arrays may share memory: what numpy's `transpose` returns is a view of its argument, and so may be what `tensordot` and `einsum` return. One
write may therefore change several arrays. The model does not say which ones: a write changes any set of arrays.
-/

namespace OE.Share
open OE OE.Py
variable {R : Type}

/-- What a program does that also writes into arrays. -/
inductive WEvent (R : Type)
  /-- an event of `Model/Sharing.lean` -/
  | prog (e : Event R)
  /-- a write that gives the arrays `A` the contents `T` -/
  | write (A : List Nat) (T : Nat → Tensor R)

/-- The state after a write. No code of opt_einsum runs: caches and contexts are untouched. -/
def writeArrays (A : List Nat) (T : Nat → Tensor R) (w : World R) : World R :=
  { w with heap := fun x => if x ∈ A then T x else w.heap x }

/-- The program can do this: a write keeps the shapes. -/
def PossibleW (w : World R) : WEvent R → Prop
  | .prog e => Possible w e
  | .write A T => ∀ a ∈ A, (T a).shape = (w.heap a).shape

variable [CommSemiring R]

/-- One event. -/
def stepW (E : Env R) (w : World R) : WEvent R → World R
  | .prog e => step E w e
  | .write A T => writeArrays A T w

/-- The states that a program can reach when it only does what `P` permits. -/
inductive ReachableW (E : Env R) (P : World R → WEvent R → Prop) : World R → Prop
  | init (heap : Nat → Tensor R) :
      ReachableW E P { heap, roots := [], caches := [], stack := [], nextCache := 0, clock := 0, execs := 0 }
  | step {w : World R} (e : WEvent R) : ReachableW E P w → PossibleW w e → P w e → ReachableW E P (stepW E w e)

end OE.Share
