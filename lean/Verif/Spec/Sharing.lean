import Verif.Model.Sharing
import Verif.Spec.Parser

/-! What calls under sharing have to deliver. -/

namespace OE.Spec
open OE OE.Py OE.Share OE.Parser
variable {R : Type}

/-- The identity of a new array is not in use. -/
def FreshIds (E : Env R) : Prop := ∀ n l, E.alloc n l ∉ l

variable [CommSemiring R]

/-- The outcome of a call without sharing, computed from the contents of the arrays: `none` for an event that is not a call.
`contract(optimize=False)` runs in numpy whatever the `backend` argument. -/
def direct (E : Env R) (w : World R) : Event R → Option (Except PyErr (Tensor R))
  | .transpose _ a axes => some (npTranspose (w.heap a) axes)
  | .tensordot _ x y axes => some (npTensordot (w.heap x) (w.heap y) axes.1 axes.2)
  | .einsum b eq ids => some (Contract.einsumCall (E.noEinsum b) eq (ids.map w.heap))
  | .contract _ s ids .off _ _ => some (Contract.einsumCall (E.noEinsum (S "numpy")) s (ids.map w.heap))
  | .contract b s ids opt mem ub => some (Contract.contract (E.noEinsum b) s (ids.map w.heap) opt mem ub)
  | .convert n k a => some (.ok (E.conv n k (w.heap a)))
  | _ => none

/-- The call returns an array with the expected contents, or raises where an exception is expected. -/
def Agrees (o : Except PyErr Nat × World R) (d : Except PyErr (Tensor R)) : Prop :=
  match o.1, d with
  | .ok a, .ok T => o.2.heap a = T
  | .error _, .error _ => True
  | _, _ => False

/-- An equation as `contract` itself produces them, or as the user writes them if numpy reads them as the parser does: accepted by the
parser, the output is one term, and after the expansion of ellipses there are at most 52 labels. -/
def SimpleEquation (eq : Str) (shapes : List Shape) : Prop :=
  NumpyReads eq shapes ∧ ∃ inp out, parseEinsum eq shapes = .ok (inp, out) ∧ cComma ∉ out ∧
    (cDot ∈ eq → ((splitOn cComma inp).flatten ++ out).toFinset.card ≤ 52)

/-- Calls in which the user's own equation reaches the backend have a simple equation. -/
def Covered (w : World R) : Event R → Prop
  | .einsum _ eq ids => SimpleEquation eq (ids.map (fun i => (w.heap i).shape))
  | .contract _ eq ids .off _ _ => SimpleEquation eq (ids.map (fun i => (w.heap i).shape))
  | _ => True

/-- The equation `inp'->out'` with operands `ids'` is `inp->out` with operands `ids`, up to the order of the (term, operand) pairs and an
injective renaming of the labels. -/
def SameSum (inp out : Str) (ids : List Nat) (inp' out' : Str) (ids' : List Nat) : Prop :=
  ∃ p : List (Str × Nat), p.Perm ((splitOn cComma inp).zip ids) ∧ p.map Prod.snd = ids' ∧
    AlphaEq (join [cComma] (p.map Prod.fst) ++ S "->" ++ out) (inp' ++ S "->" ++ out')

/-- What a program may do in between while it goes on using cache `c` and the arrays `A`: anything but forgetting them. -/
def Retains (c : Nat) (A : List Nat) (w : World R) (e : Event R) : Prop :=
  Covered w e ∧ e ≠ .dropCache c ∧ ∀ i ∈ A, e ≠ .drop i

end OE.Spec
