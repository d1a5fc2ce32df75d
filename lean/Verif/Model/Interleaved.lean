import Verif.Model.Contract

/-!
# Model of `contract` on interleaved operands
-/

namespace OE.Contract
open OE OE.Py OE.Parser
variable {R : Type} [CommSemiring R] {κ : Type} [LinearOrder κ]

/-- `contract(op0, sub0, op1, sub1, ..., [output])` (contract.py:577-603, parser.py:328-329) with `optimize` other than `False`: the operands
are converted when `contract_path` parses them. With `optimize=False` everything is handed to numpy's own interleaved form
(contract.py:435-437), which is not modelled: the model raises. -/
def contractInterleaved (noEinsum : Bool) (items : List (Tensor R × List (Lbl κ))) (output : Option (List (Lbl κ))) (opt : Optimize)
    (mem : MemLimit) (useBlas : Bool) : Except PyErr (Tensor R) :=
  match opt with
  | .off => .error .type
  | _ => do
    let (inp, out, ops) ← parseInterleaved Tensor.shape items output
    let info ← contractPath (splitOn cComma inp) out (ops.map Tensor.shape) opt mem useBlas
    coreContract noEinsum info.contractionList ops

end OE.Contract
