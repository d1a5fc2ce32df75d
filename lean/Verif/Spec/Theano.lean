import Verif.Model.Theano
import Verif.Spec.GraphMode

/-!
# Which histories are safe for an expression compiled by Theano
-/

namespace OE.Spec
open OE OE.AnyLibrary OE.GraphMode

variable {A : Type}

/-- In the innermost context, constants converted with the same `id` have the same contents. This is so if the arrays behind them stay alive and are not modified. -/
def ConstantsKept (w : World A) : Prop :=
  ∀ c, w.contexts.head? = some c → ∀ x y, (true, x) ∈ c.log → (true, y) ∈ c.log → x.id = y.id → x.val = y.val

/-- After every event of a history, constants are kept. -/
def KeptHistory (lib : Library A) (ndim : A → Nat) : World A × Expr A → List (Event A) → Prop
  | _, [] => True
  | s, ev :: evs => ConstantsKept (Theano.step lib ndim s ev).1 ∧ KeptHistory lib ndim (Theano.step lib ndim s ev) evs

/-- Moreover, variables converted with the same `id` have the same number of dimensions, all calls pass arrays with the given numbers of dimensions and, inside
`shared_intermediates`, different objects. -/
def TheanoHistory (lib : Library A) (ndim : A → Nat) (nds : List Nat) : World A × Expr A → List (Event A) → Prop
  | _, [] => True
  | s, ev :: evs =>
    (∀ ids arrays, ev = .call ids arrays → arrays.map (fun x => ndim x.val) = nds ∧ (s.1.contexts = [] ∨ (arrays.map Obj.id).Nodup)) ∧
    NoReuse (fun a => [ndim a]) (Theano.step lib ndim s ev).1 ∧ TheanoHistory lib ndim nds (Theano.step lib ndim s ev) evs

end OE.Spec
