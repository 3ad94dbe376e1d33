import Verif.Props.Integer
import Verif.Props.IntervalSetIter
import Verif.Props.Literal
import Verif.Props.Infer
import Verif.Props.Query
import Verif.Props.TestLiteral
import Verif.Props.Epoch
import Verif.Props.Queue
import Verif.Props.Propagate
import Verif.Props.EngineDemo
import Verif.Props.Watch
import Verif.Props.Luby
import Verif.Props.Search
import Verif.Lemmas.Checks
import Verif.Props.Heuristics
import Verif.Props.Solve
import Verif.Model.Nogoods
import Verif.Lemmas.Learning
import Verif.Lemmas.Refined
import Verif.Lemmas.RefinedOK
import Verif.Lemmas.Watched
import Verif.Lemmas.Kept
import Verif.Spec.Ver
import Verif.Lemmas.Ver
import Verif.Lemmas.Relative
import Verif.Props.Nogoods
import Verif.Model.Constraint
import Verif.Spec.Posts
import Verif.Spec.Stateful
import Verif.Lemmas.Stateful
import Verif.Lemmas.Posts
import Verif.Lemmas.Problem
import Verif.Model.Solve
import Verif.Props.Problem
import Verif.Lemmas.Twin
import Verif.Lemmas.Guard
import Verif.Props.Stateful
import Verif.Model.Cons.Steps
import Verif.Model.Cons.Reified
import Verif.Model.Cons.Comparison
import Verif.Model.Cons.Equals
import Verif.Spec.Reified
import Verif.Lemmas.Cons.Steps
import Verif.Lemmas.Cons.Reified
import Verif.Lemmas.Cons.Comparison
import Verif.Lemmas.Cons.Equals
import Verif.Lemmas.Decide
import Verif.Props.Cons.Comparison
import Verif.Props.Cons.Equals
import Verif.Props.Cons.Demo
import Verif.Model.Cons.Logical
import Verif.Lemmas.Cons.Logical
import Verif.Props.Cons.Logical
import Verif.Model.Cons.Increasing
import Verif.Lemmas.Cons.Increasing
import Verif.Props.Cons.Increasing
import Verif.Model.Cons.AllEqual
import Verif.Lemmas.Cons.AllEqual
import Verif.Props.Cons.AllEqual
import Verif.Lemmas.Cons.Values
import Verif.Model.Cons.Counting
import Verif.Axioms
import Verif.Lemmas.Cons.Loops
import Verif.Lemmas.Cons.Counting
import Verif.Spec.Counting
import Verif.Lemmas.Cons.NValue
import Verif.Lemmas.Cons.In
import Verif.Lemmas.Cons.Among
import Verif.Props.Cons.Run
import Verif.Props.Cons.Counting
import Verif.Model.Cons.Arithmetic
import Verif.Model.Cons.MinMax
import Verif.Lemmas.Cons.Quiet
import Verif.Lemmas.Cons.PlusMinus
import Verif.Lemmas.Cons.Gaps
import Verif.Lemmas.Cons.Abs
import Verif.Lemmas.Cons.MinMax
import Verif.Props.Cons.Arithmetic
import Verif.Model.Cons.Linear
import Verif.Spec.Linear
import Verif.Lemmas.Cons.LinearTidy
import Verif.Lemmas.Cons.Linear
import Verif.Lemmas.Cons.LinearInstall
import Verif.Lemmas.Cons.LinearConsistent
import Verif.Props.Cons.Linear
import Verif.Model.Cons.Matching
import Verif.Spec.Matching
import Verif.Lemmas.Cons.Matching
import Verif.Lemmas.Cons.Components
import Verif.Lemmas.Cons.Prune
import Verif.Model.Cons.AllDifferent
import Verif.Spec.AllDifferent
import Verif.Lemmas.Cons.AllDifferent
import Verif.Lemmas.Cons.AllDifferentPost
import Verif.Model.Cons.ValueConsistent
import Verif.Lemmas.Cons.ValueConsistent
import Verif.Lemmas.Cons.AllDifferentInstall
import Verif.Props.Cons.AllDifferent
import Verif.Spec.Inverse
import Verif.Model.Cons.Inverse
import Verif.Lemmas.Cons.Inverse
import Verif.Props.Cons.Inverse
import Verif.Spec.Precede
import Verif.Model.Cons.ValuePrecede
import Verif.Lemmas.Cons.ValuePrecede
import Verif.Props.Cons.ValuePrecede
import Verif.Props.Hidden
import Verif.Spec.Table
import Verif.Model.Cons.Table
import Verif.Lemmas.Cons.Table
import Verif.Props.Cons.Table
import Verif.Model.Cons.NegativeTable
import Verif.Props.Cons.NegativeTable
import Verif.Spec.Lex
import Verif.Model.Cons.Lex
import Verif.Lemmas.Cons.ReifiedState
import Verif.Lemmas.Cons.Lex
import Verif.Props.Cons.Lex
import Verif.Model.Cons.LinearIncremental
import Verif.Model.Cons.SparseSet
import Verif.Lemmas.Cons.LinearIncremental
import Verif.Lemmas.Cons.SparseSet
import Verif.Props.Cons.LinearIncremental
import Verif.Model.Cons.LinearSlack
import Verif.Lemmas.Cons.LinearSlack
import Verif.Props.Cons.LinearSlack
import Verif.Model.Cons.Layered
import Verif.Lemmas.Cons.LayeredGraph
import Verif.Lemmas.Cons.Layered
import Verif.Spec.Automaton
import Verif.Props.Cons.Layered
import Verif.Model.Cons.GlobalCardinality
import Verif.Lemmas.Cons.GlobalCardinality
import Verif.Props.Cons.GlobalCardinality
import Verif.Model.Cons.Flow
import Verif.Lemmas.Cons.Flow
import Verif.Model.Cons.GlobalCardinalityGac
import Verif.Lemmas.Cons.Circulation
import Verif.Lemmas.Cons.GlobalCardinalityNet
import Verif.Lemmas.Cons.GlobalCardinalityCut
import Verif.Lemmas.Cons.GlobalCardinalityGac
import Verif.Lemmas.Cons.GlobalCardinalityGacRight
import Verif.Props.Cons.GlobalCardinalityGac
import Verif.Spec.Circuit
import Verif.Model.Cons.Circuit
import Verif.Model.Cons.Disjunctive2D
import Verif.Spec.Disjunctive2D
import Verif.Lemmas.Cons.Tour
import Verif.Lemmas.Cons.CircuitScc
import Verif.Lemmas.Cons.CircuitCheck
import Verif.Lemmas.Cons.CircuitTail
import Verif.Lemmas.Cons.CircuitInstall
import Verif.Lemmas.Cons.CircuitPrevent
import Verif.Lemmas.Cons.CircuitHang
import Verif.Props.Cons.Circuit
import Verif.Lemmas.Rooted
import Verif.Lemmas.Cons.Disjunctive2D
import Verif.Lemmas.Cons.Disjunctive2DInstall
import Verif.Props.Cons.Disjunctive2D
import Verif.Model.Cons.MinDistance
import Verif.Spec.MinDistance
import Verif.Lemmas.Cons.MinDistance
import Verif.Lemmas.Cons.MinDistanceProp
import Verif.Lemmas.Cons.MinDistanceMatch
import Verif.Lemmas.Cons.MinDistanceInstall
import Verif.Props.Cons.MinDistance
import Verif.Model.Cons.Knapsack
import Verif.Spec.Knapsack
import Verif.Lemmas.Cons.Knapsack
import Verif.Lemmas.Cons.KnapsackProp
import Verif.Lemmas.Cons.KnapsackInstall
import Verif.Props.Cons.Knapsack
import Verif.Spec.Sort
import Verif.Model.Cons.Sort
import Verif.Lemmas.Cons.SortSweep
import Verif.Lemmas.Cons.Sort
import Verif.Lemmas.Cons.SortCertain
import Verif.Lemmas.Cons.SortProp
import Verif.Props.Cons.Sort
import Verif.Spec.ArgSort
import Verif.Model.Cons.ArgSort
import Verif.Lemmas.Cons.ArgSort
import Verif.Lemmas.Cons.ArgSortMeans
import Verif.Lemmas.Cons.ArgSortProp
import Verif.Lemmas.Cons.ArgSortInstall
import Verif.Props.Cons.ArgSort
import Verif.Spec.SmartTable
import Verif.Model.Cons.SmartTable
import Verif.Lemmas.Cons.SmartTable
import Verif.Lemmas.Cons.SmartTableTree
import Verif.Lemmas.Cons.SmartTableInstall
import Verif.Props.Cons.SmartTable
import Verif.Spec.BinPacking
import Verif.Model.Cons.BinPacking
import Verif.Lemmas.Cons.BinPacking
import Verif.Lemmas.Cons.BinPackingDag
import Verif.Lemmas.Cons.BinPackingSweep
import Verif.Lemmas.Cons.BinPackingInstall
import Verif.Props.Cons.BinPacking
import Verif.Spec.Regex
import Verif.Model.Cons.Regex
import Verif.Lemmas.Cons.RegexParse
import Verif.Lemmas.Cons.RegexGrammar
import Verif.Lemmas.Cons.RegexLex
import Verif.Lemmas.Cons.RegexBuild
import Verif.Lemmas.Cons.RegexNfa
import Verif.Lemmas.Cons.RegexMatch
import Verif.Props.Cons.Regex
import Verif.Spec.Cumulative
import Verif.Model.Cons.Cumulative
import Verif.Lemmas.Cons.CumulativeSum
import Verif.Lemmas.Cons.CumulativeLoad
import Verif.Lemmas.Cons.CumulativeTable
import Verif.Lemmas.Cons.CumulativeOverload
import Verif.Lemmas.Cons.CumulativeInstall
import Verif.Lemmas.Cons.CumulativePost
import Verif.Props.Cons.Cumulative
import Verif.Spec.Disjunctive
import Verif.Model.Cons.Disjunctive
import Verif.Lemmas.Cons.DisjunctiveTable
import Verif.Lemmas.Cons.DisjunctiveInstall
import Verif.Props.Cons.Disjunctive
import Verif.Model.Cons.RegularStrategy
import Verif.Props.Cons.RegularStrategy
import Verif.Model.AutoTable
import Verif.Lemmas.AutoTable
import Verif.Props.AutoTable
import Verif.Spec.Books
import Verif.Lemmas.Books
import Verif.Props.Books
import Verif.Model.Weighting
import Verif.Spec.Weighting
import Verif.Lemmas.Weighting
import Verif.Lemmas.WeightingSchemes
import Verif.Lemmas.WeightingRefined
import Verif.Props.Weighting
import Verif.Model.Cons.Difference
import Verif.Lemmas.Cons.DifferenceNet
import Verif.Lemmas.Cons.DifferenceRelax
import Verif.Lemmas.Cons.Difference
import Verif.Lemmas.Cons.DifferenceProp
import Verif.Lemmas.Cons.DifferenceInstall
import Verif.Lemmas.Cons.DifferenceConsistent
import Verif.Props.Cons.Difference
import Verif.Model.Cons.DifferenceSimplify
import Verif.Lemmas.Cons.DifferenceShort
import Verif.Lemmas.Cons.DifferenceDijkstra
import Verif.Lemmas.Cons.DifferenceSources
import Verif.Lemmas.Cons.DifferenceSimplify
import Verif.Lemmas.Cons.DifferenceOutcome
import Verif.Lemmas.Cons.DifferencePotential
import Verif.Props.Cons.DifferenceSimplify
import Verif.Model.Cons.DifferenceRoot
import Verif.Lemmas.Cons.DifferenceRoot
import Verif.Props.Cons.DifferenceRoot
import Verif.Model.IntervalTree
import Verif.Lemmas.IntervalTree
import Verif.Props.IntervalTree
import Verif.Model.RangeLiterals
import Verif.Spec.RangeLiterals
import Verif.Lemmas.RangeLiterals
import Verif.Lemmas.RangePartition
import Verif.Lemmas.RangeRequests
import Verif.Props.RangeLiterals
import Verif.Model.OrderLiterals
import Verif.Spec.OrderLiterals
import Verif.Lemmas.OrderLiterals
import Verif.Props.OrderLiterals
import Verif.Model.Cons.MakespanEnergy
import Verif.Spec.MakespanEnergy
import Verif.Lemmas.Cons.MakespanEnergy
import Verif.Lemmas.Cons.MakespanSlots
import Verif.Model.Cons.MakespanLinks
import Verif.Spec.MakespanLinks
import Verif.Lemmas.Cons.MakespanLinks
import Verif.Props.Cons.MakespanEnergy
import Verif.Spec.Element
import Verif.Model.Cons.Element
import Verif.Lemmas.Cons.Element
import Verif.Props.Cons.Element

import Verif.Model.Cons.Multiply
import Verif.Lemmas.Cons.Product
import Verif.Lemmas.Cons.Multiply
import Verif.Props.Cons.Multiply
import Verif.Model.Cons.Tabulation
import Verif.Lemmas.Cons.Tabulation
import Verif.Lemmas.Cons.TabulationServe
import Verif.Lemmas.Cons.TabulationPlans
import Verif.Lemmas.Cons.TabulationInstall
import Verif.Props.Cons.Tabulated
import Verif.Model.Cons.Stages
import Verif.Lemmas.Cons.Stages
import Verif.Model.Cons.Power
import Verif.Lemmas.Cons.Power
import Verif.Lemmas.Cons.PowerTable
import Verif.Props.Cons.Power
import Verif.Model.Cons.DivMod
import Verif.Lemmas.Cons.DivModArith
import Verif.Lemmas.Cons.DivMod
import Verif.Lemmas.Cons.DivModInstall
import Verif.Lemmas.Cons.DivModTable
import Verif.Lemmas.Cons.TabulationHidden
import Verif.Props.Cons.DivMod
import Verif.Model.SExpr
import Verif.Spec.SExpr
import Verif.Lemmas.SExpr
import Verif.Props.SExpr
import Verif.Model.Names
import Verif.Spec.Names
import Verif.Lemmas.Names
import Verif.Props.Names
import Verif.Model.Pb
import Verif.Model.PbSession
import Verif.Spec.Pb
import Verif.Lemmas.PbEmit
import Verif.Lemmas.PbMeans
import Verif.Lemmas.PbDefs
import Verif.Lemmas.PbBits
import Verif.Lemmas.PbSession
import Verif.Lemmas.PbHistory
import Verif.Lemmas.PbClause
import Verif.Props.Pb
