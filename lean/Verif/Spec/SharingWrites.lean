import Verif.Model.SharingWrites
import Verif.Spec.Sharing

/-! Which writes are harmless. -/

namespace OE.Spec
open OE OE.Py OE.Share
variable {R : Type}

/-- A living cache refers to the array: it was an operand or the result of a call made under sharing. -/
def Cached (w : World R) (a : Nat) : Prop := ∃ p ∈ w.caches, a ∈ p.2.map Prod.snd

variable [CommSemiring R]

/-- Calls are covered as for C42; writes leave alone what a living cache refers to. -/
def Harmless (w : World R) : WEvent R → Prop
  | .prog e => Covered w e
  | .write A _ => ∀ a ∈ A, ¬ Cached w a

end OE.Spec
