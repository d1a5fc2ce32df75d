import Verif.Model.Registry
import Verif.Model.Report

/-!
# What a consistent renaming of the labels does to what `contract_path` reports

`f` gives the new names; it keeps the punctuation.
-/

namespace OE.Spec
open OE OE.Py OE.Contract

/-- A contraction with new names: the same positions, the same kind of call. -/
def renameStep (f : Nat → Nat) (s : Step) : Step :=
  { inds := s.inds
    removed := s.removed.image f
    einsumStr := s.einsumStr.map f
    remaining := s.remaining.map (List.map (List.map f))
    blas := s.blas }

/-- The path information with new names: the same path, the same numbers. -/
def renameInfo (f : Nat → Nat) (i : PathInfo) : PathInfo :=
  { contractionList := i.contractionList.map (renameStep f)
    path := i.path
    indices := i.indices.image f
    scaleList := i.scaleList
    naiveCost := i.naiveCost
    optCost := i.optCost
    sizeList := i.sizeList
    sizeDict := i.sizeDict.map (fun p => (f p.1, p.2))
    largestIntermediate := i.largestIntermediate }

/-- The whole report with new names. -/
def renameReport (f : Nat → Nat) (r : Report) : Report :=
  { info := renameInfo f r.info
    inputSubscripts := r.inputSubscripts.map f
    outputSubscript := r.outputSubscript.map f
    shapes := r.shapes
    eq := r.eq.map f }

/-- Two reports with the same path and the same numbers, step by step the same kind of call on the same positions. -/
structure SamePlan (i j : PathInfo) : Prop where
  path : j.path = i.path
  positions : j.contractionList.map Step.inds = i.contractionList.map Step.inds
  calls : j.contractionList.map Step.blas = i.contractionList.map Step.blas
  scale : j.scaleList = i.scaleList
  naive : j.naiveCost = i.naiveCost
  cost : j.optCost = i.optCost
  sizes : j.sizeList = i.sizeList
  largest : j.largestIntermediate = i.largestIntermediate

end OE.Spec
