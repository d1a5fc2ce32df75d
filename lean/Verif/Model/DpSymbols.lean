import Verif.Model.Dp

/-!
# The conversion of labels to integers in `DynamicProgramming` (`opt_einsum/paths.py:1187-1196`)

`Verif.Model.Dp` starts after it; `allInds` is `tuple(ind_counts)`, the labels in the order in which the iteration over the inputs and the output
meets them. The inputs may be sets, so any order of the labels is possible.
-/

namespace OE.Paths
open OE OE.Py

/-- `symbol2int[c]` (paths.py:1191) for a label that occurs. -/
def symbol2int (allInds : List Nat) (c : Nat) : Nat := allInds.idxOf c

/-- `size_dict_canonical` (paths.py:1194). -/
def sizeCanonical (allInds : List Nat) (d : Dict Nat Nat) : Dict Nat Nat :=
  (d.filter (fun p => p.1 ∈ allInds)).map (fun p => (symbol2int allInds p.1, p.2))

/-- The list `size_dict` (paths.py:1195): `KeyError` if an earlier label has no size. -/
def sizeListOf (canonical : Dict Nat Nat) : Except PyErr (List Nat) := (List.range canonical.length).mapM (fun j => canonical.get! j)

/-- `DynamicProgramming.__call__` (paths.py:1148-1306) with the conversion of the labels. `size_dict[j]` past the end of the list would be an
`IndexError`; it is 1 here, and not looked at when all labels have sizes. -/
def dpCallSymbols (cfg : DPCfg) (order : PopOrder) (allInds : List Nat) (d : Dict Nat Nat) (limit : Option Nat) (inputs : List (Finset Nat))
    (output : Finset Nat) (fuel : Nat) : Option (Except PyErr Path) :=
  match sizeListOf (sizeCanonical allInds d) with
  | .error e => some (.error e)
  | .ok sizes =>
    dpCall cfg order (fun j => sizes.getD j 1) limit (inputs.map (Finset.image (symbol2int allInds))) (output.image (symbol2int allInds)) fuel

end OE.Paths
