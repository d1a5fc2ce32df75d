import Mathlib.Data.Prod.Lex
import Mathlib.Order.WithBot

/-!
# What an optimizer instance remembers of its best path
-/

namespace OE.Spec

/-- The figures of the best path so far, infinite if there is none. -/
structure Record where
  flops : WithTop Nat
  size : WithTop Nat

/-- The figures of one record come before those of another: operations first, or sizes first. -/
def Record.Before (bySize : Bool) (a b : Record) : Prop :=
  if bySize then toLex (a.size, a.flops) < toLex (b.size, b.flops) else toLex (a.flops, a.size) < toLex (b.flops, b.size)

end OE.Spec
