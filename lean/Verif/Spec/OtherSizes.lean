import Verif.Spec.Contract

/-!
# Specification: arrays of other sizes than those a contraction was planned with
-/

namespace OE.Spec
open OE

/-- The arrays of shapes `called` broadcast no more than those of shapes `built`: for each label, either all its axes among `called` have
one length, or its axes of length 1 are the same among `built` and among `called`. -/
def BroadcastsAlike {κ : Type} (inputs : List (List κ)) (built called : List Shape) : Prop :=
  ∀ c : κ, (∀ d d', DimOccurs inputs called c d → DimOccurs inputs called c d' → d = d') ∨
    ∀ (i j : Nat) (t : List κ) (s s' : Shape) (d d' : Nat), inputs[i]? = some t → built[i]? = some s → called[i]? = some s' →
      t[j]? = some c → s[j]? = some d → s'[j]? = some d' → (d = 1 ↔ d' = 1)

end OE.Spec
