import Verif.Model.Contract

/-!
# What `contract_path` reports (contract.py:32-62, 293-429)

`PathInfo` together with the fields it derives from the parsed equation. `contract_path(..., shapes=True)` takes shapes for operands.
-/

namespace OE.Contract
open OE OE.Py OE.Parser

/-- The fields of `PathInfo` that concern the equation, beside the ones of `OE.Contract.PathInfo`. -/
structure Report where
  info : PathInfo
  inputSubscripts : Str
  outputSubscript : Str
  shapes : List Shape
  eq : Str

/-- `size_dict[k]`: `KeyError` for a missing label. -/
def sizeAt (d : Dict Nat Nat) (k : Nat) : Except PyErr Nat :=
  match d.get? k with
  | some v => .ok v
  | none => .error .key

/-- `contract_path(subscripts, *shapes, shapes=True)` (contract.py:293-429) and `PathInfo.__init__` (contract.py:35-65); also
`contract_path(subscripts, *arrays)` for arrays of these shapes. -/
def contractPathStr (subscripts : Str) (shapes : List Shape) (opt : Optimize) (mem : MemLimit) (useBlas : Bool) : Except PyErr Report := do
  let (inp, out) ← parseEinsum subscripts shapes
  let info ← contractPath (splitOn cComma inp) out shapes opt mem useBlas
  let reported ← (splitOn cComma inp).mapM (fun ks => ks.mapM (sizeAt info.sizeDict))
  .ok { info, inputSubscripts := inp, outputSubscript := out, shapes := reported, eq := inp ++ [cDash, cGt] ++ out }

end OE.Contract
