import Verif.Model.Interleaved
import Verif.Model.Expression

/-!
# `contract_expression` on interleaved operands (opt_einsum/contract.py:1019-1043)
-/

namespace OE.Expression
open OE OE.Py OE.Parser OE.Contract
variable {R : Type} [CommSemiring R] {κ : Type} [LinearOrder κ]

/-- `contract_expression(item0, sub0, item1, sub1, ..., [output], constants=...)` (contract.py:1019-1043): `optimize` is checked, then the arguments are
converted to an equation and a tuple of items (contract.py:1028-1029), to which the positions in `constants` refer. -/
def contractExpressionInterleaved (items : List (Item R × List (Lbl κ))) (output : Option (List (Lbl κ))) (constants : List Nat) (opt : Optimize)
    (mem : MemLimit) (useBlas : Bool) : Except PyErr (Expr R) :=
  match opt with
  | .off => .error .value
  | .path [] => .error .value
  | _ => do
    let (subscripts, shapes) ← convertInterleaved items output
    contractExpression subscripts shapes constants opt mem useBlas

end OE.Expression
