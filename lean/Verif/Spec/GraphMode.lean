import Verif.Model.GraphMode
import Verif.Spec.Expression

/-!
# Which histories are safe for an expression in graph mode
-/

namespace OE.Spec
open OE OE.AnyLibrary OE.GraphMode

variable {A : Type}

/-- In the innermost context, arrays converted with the same `id` are alike: constants have the same contents, others the same shape. This
is so if every array converted in the context stays alive, and constants are not modified. -/
def NoReuse (shape : A → Shape) (w : World A) : Prop :=
  ∀ c, w.contexts.head? = some c →
    (∀ x y, (true, x) ∈ c.log → (true, y) ∈ c.log → x.id = y.id → x.val = y.val) ∧
    (∀ x y, (false, x) ∈ c.log → (false, y) ∈ c.log → x.id = y.id → shape x.val = shape y.val)

/-- The arrays of a call have the given shapes and, inside `shared_intermediates`, are different objects. -/
def SafeEvent (shape : A → Shape) (shapes : List Shape) (w : World A) : Event A → Prop
  | .call _ arrays => arrays.map (fun x => shape x.val) = shapes ∧ (w.contexts = [] ∨ (arrays.map Obj.id).Nodup)
  | _ => True

/-- All events of a history are safe and no `id` is used again. -/
def SafeHistory (lib : Library A) (shape : A → Shape) (shapes : List Shape) : World A × Expr A → List (Event A) → Prop
  | _, [] => True
  | s, ev :: evs => SafeEvent shape shapes s.1 ev ∧ NoReuse shape (step lib shape s ev).1 ∧ SafeHistory lib shape shapes (step lib shape s ev) evs

end OE.Spec
