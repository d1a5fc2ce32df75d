import Verif.Py.Basic

/-!
# Specification for expressions with constants
-/

namespace OE.Spec

/-- `full` is the list of operands obtained from `slots` (a constant, or nothing for a variable) by putting the variables, in order, into
the empty places. -/
inductive Merge {α : Type} : List (Option α) → List α → List α → Prop
  | nil : Merge [] [] []
  | const (a : α) (slots : List (Option α)) (vars full : List α) : Merge slots vars full → Merge (some a :: slots) vars (a :: full)
  | var (v : α) (slots : List (Option α)) (vars full : List α) : Merge slots vars full → Merge (none :: slots) (v :: vars) (v :: full)

end OE.Spec
