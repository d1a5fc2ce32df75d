import Verif.Spec.Search
import Verif.Model.Contract

/-!
# The memory limit as the user of `contract_path` sees it
-/

namespace OE.Spec
open OE OE.Contract

/-- A tensor of `s` elements is within `memory_limit`: a number (`-1` for none), or as large as the largest operand or the output. -/
def WithinMemory (mem : MemLimit) (size : Nat → Nat) (inputs : List Str) (output : Str) (s : Nat) : Prop :=
  match mem with
  | .none => True
  | .num q => q = -1 ∨ (s : ℚ) ≤ q
  | .maxInput => ∃ t ∈ inputs ++ [output], s ≤ (t.map size).prod
  | .otherStr => False

end OE.Spec
