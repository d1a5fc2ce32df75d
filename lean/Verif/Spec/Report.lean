import Verif.Model.Report

/-!
# Specification: reports that agree but for the BLAS flags
-/

namespace OE.Spec
open OE OE.Contract

/-- An entry of the contraction list without its BLAS flag. -/
def unflagged (s : Step) : Step := { s with blas := .no }

/-- Two reports that say the same but for the BLAS flags of the steps. -/
structure SameButFlags (a b : Report) : Prop where
  eq : a.eq = b.eq
  inputs : a.inputSubscripts = b.inputSubscripts
  output : a.outputSubscript = b.outputSubscript
  shapes : a.shapes = b.shapes
  path : a.info.path = b.info.path
  indices : a.info.indices = b.info.indices
  scales : a.info.scaleList = b.info.scaleList
  naive : a.info.naiveCost = b.info.naiveCost
  cost : a.info.optCost = b.info.optCost
  sizes : a.info.sizeList = b.info.sizeList
  sizeDict : a.info.sizeDict = b.info.sizeDict
  largest : a.info.largestIntermediate = b.info.largestIntermediate
  steps : a.info.contractionList.map unflagged = b.info.contractionList.map unflagged

end OE.Spec
