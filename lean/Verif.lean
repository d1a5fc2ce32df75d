import Verif.Lemmas.Order
import Verif.Props.Contract3
import Verif.Props.Parser3
import Verif.Props.Paths2
import Verif.Props.Optimal2
import Verif.Props.Branch3
import Verif.Props.Random2
import Verif.Props.Subgraphs
import Verif.Props.Dp2
import Verif.Props.Auto
import Verif.Props.Objects
import Verif.Props.Torch
import Verif.Props.Dispatch
import Verif.Spec.Dispatch
import Verif.Props.Dispatch2
import Verif.Props.SharingStack
import Verif.Props.Sharing3
import Verif.Props.Expression
import Verif.Props.Out
import Verif.Props.Interleaved
import Verif.Props.Testing
import Verif.Props.Branch4
import Verif.Props.Choices
import Verif.Props.Optimal3
import Verif.Lemmas.GreedyTags
import Verif.Props.Greedy3
import Verif.Model.ExprThreads
import Verif.Props.ExprThreads
import Verif.Props.ExprRace
import Verif.Spec.EndToEnd
import Verif.Props.EndToEnd
import Verif.Spec.OtherSizes
import Verif.Lemmas.OtherSizes
import Verif.Props.OtherSizes
import Verif.Model.SharingThreads
import Verif.Lemmas.SharingThreads
import Verif.Props.SharingThreads
import Verif.Model.IntPath
import Verif.Spec.IntPath
import Verif.Lemmas.IntPath
import Verif.Props.IntPath
import Verif.Model.ArrayLike
import Verif.Spec.ArrayLike
import Verif.Props.ArrayLike
import Verif.Model.Report
import Verif.Spec.Report
import Verif.Lemmas.Report
import Verif.Props.Report
import Verif.Model.Print
import Verif.Spec.Print
import Verif.Lemmas.Print
import Verif.Props.Print
import Verif.Props.BranchLimit
import Verif.Model.AnyLibrary
import Verif.Spec.AnyLibrary
import Verif.Lemmas.AnyLibrary
import Verif.Lemmas.ArrayCongr
import Verif.Props.AnyLibrary
import Verif.Spec.DpReport
import Verif.Lemmas.TreePath
import Verif.Props.DpReport
import Verif.Model.RandomUse
import Verif.Props.RandomUse
import Verif.Model.GraphMode
import Verif.Spec.GraphMode
import Verif.Lemmas.GraphMode
import Verif.Lemmas.GraphWorld
import Verif.Props.GraphMode
import Verif.Model.Executors
import Verif.Props.Executors
import Verif.Model.InterleavedExpr
import Verif.Props.InterleavedExpr
import Verif.Model.DpSymbols
import Verif.Spec.Rename
import Verif.Props.Rename
import Verif.Spec.Again
import Verif.Props.BranchAgain
import Verif.Model.CountOps
import Verif.Props.CountOps
import Verif.Props.Exactly
import Verif.Lemmas.DpOutcome
import Verif.Props.DpExactly
import Verif.Props.Exactly2
import Verif.Model.Theano
import Verif.Spec.Theano
import Verif.Props.Theano
import Verif.Model.Minimize
import Verif.Spec.Minimize
import Verif.Lemmas.DpWith
import Verif.Props.Minimize
import Verif.Model.Eager
import Verif.Spec.Eager
import Verif.Lemmas.Eager
import Verif.Props.Eager
import Verif.Props.CustomCost
import Verif.Model.DataType
import Verif.Spec.DataType
import Verif.Props.DataType
import Verif.Model.SharingWrites
import Verif.Spec.SharingWrites
import Verif.Props.SharingWrites
import Verif.Spec.AmpleMemory
import Verif.Props.AmpleMemory
import Verif.Props.MoreMemory
import Verif.Props.MoreMemoryDp
import Verif.Spec.Laws
import Verif.Props.Laws
import Verif.Props.Bounds
import Verif.Spec.Slices
import Verif.Props.Slices
import Verif.Spec.CostLaws
import Verif.Props.CostLaws
import Verif.Spec.DpParts
import Verif.Props.DpParts
import Verif.Spec.NoEinsum
import Verif.Props.NoEinsum
import Verif.Model.NoCutoff
import Verif.Props.NoCutoff
import Verif.Model.Assessed
import Verif.Spec.Assessed
import Verif.Props.Assessed
import Verif.Model.BranchObject
import Verif.Spec.Tweaks
import Verif.Props.Tweaks
import Verif.Spec.Ladder
import Verif.Lemmas.Ladder
import Verif.Props.Ladder
import Verif.Model.CustomOptimizer
import Verif.Spec.CustomOptimizer
import Verif.Props.CustomOptimizer
import Verif.Model.CostFunction
import Verif.Spec.CostFunction
import Verif.Props.CostFunction
import Verif.Spec.LocalChoice
import Verif.Props.LocalChoice
import Verif.Props.ColdGreedy
import Verif.Spec.Stages
import Verif.Props.Stages
import Verif.Props.StagesUse
import Verif.Props.ShortShape
import Verif.Spec.GreedyWork
import Verif.Props.GreedyWork
import Verif.Model.Thermal
import Verif.Spec.Boltzmann
import Verif.Props.Thermal
import Verif.Props.CostCap
import Verif.Props.DpRounds
import Verif.Model.DpWork
import Verif.Props.DpWork
