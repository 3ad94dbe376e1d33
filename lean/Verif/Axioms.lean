import Verif.Props.Integer
import Verif.Props.IntervalSetIter
import Verif.Props.Literal
import Verif.Props.Infer
import Verif.Props.Query
import Verif.Props.TestLiteral
import Verif.Props.Epoch
import Verif.Props.Queue
import Verif.Props.Propagate
import Verif.Props.EngineDemo
import Verif.Props.Watch
import Verif.Props.Luby
import Verif.Props.Search
import Verif.Lemmas.Checks
import Verif.Props.Heuristics
import Verif.Props.Solve
import Verif.Model.Nogoods
import Verif.Lemmas.Learning
import Verif.Lemmas.Refined
import Verif.Lemmas.RefinedOK
import Verif.Lemmas.Watched
import Verif.Lemmas.Kept
import Verif.Spec.Ver
import Verif.Lemmas.Ver
import Verif.Lemmas.Relative
import Verif.Props.Nogoods
import Verif.Model.Constraint
import Verif.Spec.Posts
import Verif.Spec.Stateful
import Verif.Lemmas.Stateful
import Verif.Lemmas.Posts
import Verif.Lemmas.Problem
import Verif.Model.Solve
import Verif.Props.Problem
import Verif.Lemmas.Twin
import Verif.Lemmas.Guard
import Verif.Props.Stateful
import Verif.Model.Cons.Steps
import Verif.Model.Cons.Reified
import Verif.Model.Cons.Comparison
import Verif.Model.Cons.Equals
import Verif.Spec.Reified
import Verif.Lemmas.Cons.Steps
import Verif.Lemmas.Cons.Reified
import Verif.Lemmas.Cons.Comparison
import Verif.Lemmas.Cons.Equals
import Verif.Lemmas.Decide
import Verif.Props.Cons.Comparison
import Verif.Props.Cons.Equals
import Verif.Props.Cons.Demo
import Verif.Model.Cons.Logical
import Verif.Lemmas.Cons.Logical
import Verif.Props.Cons.Logical
import Verif.Model.Cons.Increasing
import Verif.Lemmas.Cons.Increasing
import Verif.Props.Cons.Increasing
import Verif.Model.Cons.AllEqual
import Verif.Lemmas.Cons.AllEqual
import Verif.Props.Cons.AllEqual
import Verif.Lemmas.Cons.Values
import Verif.Model.Cons.Counting
import Verif.Lemmas.Cons.Loops
import Verif.Lemmas.Cons.Counting
import Verif.Spec.Counting
import Verif.Lemmas.Cons.NValue
import Verif.Lemmas.Cons.In
import Verif.Lemmas.Cons.Among
import Verif.Props.Cons.Run
import Verif.Props.Cons.Counting
import Verif.Model.Cons.Arithmetic
import Verif.Model.Cons.MinMax
import Verif.Lemmas.Cons.Quiet
import Verif.Lemmas.Cons.PlusMinus
import Verif.Lemmas.Cons.Gaps
import Verif.Lemmas.Cons.Abs
import Verif.Lemmas.Cons.MinMax
import Verif.Props.Cons.Arithmetic
import Verif.Model.Cons.Linear
import Verif.Spec.Linear
import Verif.Lemmas.Cons.LinearTidy
import Verif.Lemmas.Cons.Linear
import Verif.Lemmas.Cons.LinearInstall
import Verif.Lemmas.Cons.LinearConsistent
import Verif.Props.Cons.Linear
import Verif.Model.Cons.Matching
import Verif.Spec.Matching
import Verif.Lemmas.Cons.Matching
import Verif.Lemmas.Cons.Components
import Verif.Lemmas.Cons.Prune
import Verif.Model.Cons.AllDifferent
import Verif.Spec.AllDifferent
import Verif.Lemmas.Cons.AllDifferent
import Verif.Lemmas.Cons.AllDifferentPost
import Verif.Model.Cons.ValueConsistent
import Verif.Lemmas.Cons.ValueConsistent
import Verif.Lemmas.Cons.AllDifferentInstall
import Verif.Props.Cons.AllDifferent
import Verif.Spec.Inverse
import Verif.Model.Cons.Inverse
import Verif.Lemmas.Cons.Inverse
import Verif.Props.Cons.Inverse
import Verif.Spec.Precede
import Verif.Model.Cons.ValuePrecede
import Verif.Lemmas.Cons.ValuePrecede
import Verif.Props.Cons.ValuePrecede
import Verif.Props.Hidden
import Verif.Spec.Table
import Verif.Model.Cons.Table
import Verif.Lemmas.Cons.Table
import Verif.Props.Cons.Table
import Verif.Model.Cons.NegativeTable
import Verif.Props.Cons.NegativeTable
import Verif.Spec.Lex
import Verif.Model.Cons.Lex
import Verif.Lemmas.Cons.ReifiedState
import Verif.Lemmas.Cons.Lex
import Verif.Props.Cons.Lex
import Verif.Model.Cons.LinearIncremental
import Verif.Model.Cons.SparseSet
import Verif.Lemmas.Cons.LinearIncremental
import Verif.Lemmas.Cons.SparseSet
import Verif.Props.Cons.LinearIncremental
import Verif.Model.Cons.LinearSlack
import Verif.Lemmas.Cons.LinearSlack
import Verif.Props.Cons.LinearSlack
import Verif.Model.Cons.Layered
import Verif.Lemmas.Cons.LayeredGraph
import Verif.Lemmas.Cons.Layered
import Verif.Spec.Automaton
import Verif.Props.Cons.Layered
import Verif.Model.Cons.GlobalCardinality
import Verif.Lemmas.Cons.GlobalCardinality
import Verif.Props.Cons.GlobalCardinality
import Verif.Model.Cons.Flow
import Verif.Lemmas.Cons.Flow
import Verif.Model.Cons.GlobalCardinalityGac
import Verif.Lemmas.Cons.Circulation
import Verif.Lemmas.Cons.GlobalCardinalityNet
import Verif.Lemmas.Cons.GlobalCardinalityCut
import Verif.Lemmas.Cons.GlobalCardinalityGac
import Verif.Lemmas.Cons.GlobalCardinalityGacRight
import Verif.Props.Cons.GlobalCardinalityGac
import Verif.Spec.Circuit
import Verif.Model.Cons.Circuit
import Verif.Model.Cons.Disjunctive2D
import Verif.Spec.Disjunctive2D
import Verif.Lemmas.Cons.Tour
import Verif.Lemmas.Cons.CircuitScc
import Verif.Lemmas.Cons.CircuitCheck
import Verif.Lemmas.Cons.CircuitTail
import Verif.Lemmas.Cons.CircuitInstall
import Verif.Lemmas.Cons.CircuitPrevent
import Verif.Lemmas.Cons.CircuitHang
import Verif.Props.Cons.Circuit
import Verif.Lemmas.Rooted
import Verif.Lemmas.Cons.Disjunctive2D
import Verif.Lemmas.Cons.Disjunctive2DInstall
import Verif.Props.Cons.Disjunctive2D
import Verif.Model.Cons.MinDistance
import Verif.Spec.MinDistance
import Verif.Lemmas.Cons.MinDistance
import Verif.Lemmas.Cons.MinDistanceProp
import Verif.Lemmas.Cons.MinDistanceMatch
import Verif.Lemmas.Cons.MinDistanceInstall
import Verif.Props.Cons.MinDistance
import Verif.Model.Cons.Knapsack
import Verif.Spec.Knapsack
import Verif.Lemmas.Cons.Knapsack
import Verif.Lemmas.Cons.KnapsackProp
import Verif.Lemmas.Cons.KnapsackInstall
import Verif.Props.Cons.Knapsack
import Verif.Spec.Sort
import Verif.Model.Cons.Sort
import Verif.Lemmas.Cons.SortSweep
import Verif.Lemmas.Cons.Sort
import Verif.Lemmas.Cons.SortCertain
import Verif.Lemmas.Cons.SortProp
import Verif.Props.Cons.Sort
import Verif.Spec.ArgSort
import Verif.Model.Cons.ArgSort
import Verif.Lemmas.Cons.ArgSort
import Verif.Lemmas.Cons.ArgSortMeans
import Verif.Lemmas.Cons.ArgSortProp
import Verif.Lemmas.Cons.ArgSortInstall
import Verif.Props.Cons.ArgSort
import Verif.Spec.SmartTable
import Verif.Model.Cons.SmartTable
import Verif.Lemmas.Cons.SmartTable
import Verif.Lemmas.Cons.SmartTableTree
import Verif.Lemmas.Cons.SmartTableInstall
import Verif.Props.Cons.SmartTable
import Verif.Spec.BinPacking
import Verif.Model.Cons.BinPacking
import Verif.Lemmas.Cons.BinPacking
import Verif.Lemmas.Cons.BinPackingDag
import Verif.Lemmas.Cons.BinPackingSweep
import Verif.Lemmas.Cons.BinPackingInstall
import Verif.Props.Cons.BinPacking
import Verif.Spec.Regex
import Verif.Model.Cons.Regex
import Verif.Lemmas.Cons.RegexParse
import Verif.Lemmas.Cons.RegexGrammar
import Verif.Lemmas.Cons.RegexLex
import Verif.Lemmas.Cons.RegexBuild
import Verif.Lemmas.Cons.RegexNfa
import Verif.Lemmas.Cons.RegexMatch
import Verif.Props.Cons.Regex
import Verif.Spec.Cumulative
import Verif.Model.Cons.Cumulative
import Verif.Lemmas.Cons.CumulativeSum
import Verif.Lemmas.Cons.CumulativeLoad
import Verif.Lemmas.Cons.CumulativeTable
import Verif.Lemmas.Cons.CumulativeOverload
import Verif.Lemmas.Cons.CumulativeInstall
import Verif.Lemmas.Cons.CumulativePost
import Verif.Props.Cons.Cumulative
import Verif.Spec.Disjunctive
import Verif.Model.Cons.Disjunctive
import Verif.Lemmas.Cons.DisjunctiveTable
import Verif.Lemmas.Cons.DisjunctiveInstall
import Verif.Props.Cons.Disjunctive
import Verif.Model.Cons.RegularStrategy
import Verif.Props.Cons.RegularStrategy
import Verif.Model.AutoTable
import Verif.Lemmas.AutoTable
import Verif.Props.AutoTable
import Verif.Spec.Books
import Verif.Lemmas.Books
import Verif.Props.Books
import Verif.Model.Weighting
import Verif.Spec.Weighting
import Verif.Lemmas.Weighting
import Verif.Lemmas.WeightingSchemes
import Verif.Lemmas.WeightingRefined
import Verif.Props.Weighting
import Verif.Model.Cons.Difference
import Verif.Lemmas.Cons.DifferenceNet
import Verif.Lemmas.Cons.DifferenceRelax
import Verif.Lemmas.Cons.Difference
import Verif.Lemmas.Cons.DifferenceProp
import Verif.Lemmas.Cons.DifferenceInstall
import Verif.Lemmas.Cons.DifferenceConsistent
import Verif.Props.Cons.Difference
import Verif.Model.Cons.DifferenceSimplify
import Verif.Lemmas.Cons.DifferenceShort
import Verif.Lemmas.Cons.DifferenceDijkstra
import Verif.Lemmas.Cons.DifferenceSources
import Verif.Lemmas.Cons.DifferenceSimplify
import Verif.Lemmas.Cons.DifferenceOutcome
import Verif.Lemmas.Cons.DifferencePotential
import Verif.Props.Cons.DifferenceSimplify
import Verif.Model.Cons.DifferenceRoot
import Verif.Lemmas.Cons.DifferenceRoot
import Verif.Props.Cons.DifferenceRoot
import Verif.Model.IntervalTree
import Verif.Lemmas.IntervalTree
import Verif.Props.IntervalTree
import Verif.Model.RangeLiterals
import Verif.Spec.RangeLiterals
import Verif.Lemmas.RangeLiterals
import Verif.Lemmas.RangePartition
import Verif.Lemmas.RangeRequests
import Verif.Props.RangeLiterals
import Verif.Model.OrderLiterals
import Verif.Spec.OrderLiterals
import Verif.Lemmas.OrderLiterals
import Verif.Props.OrderLiterals
import Verif.Model.Cons.MakespanEnergy
import Verif.Spec.MakespanEnergy
import Verif.Lemmas.Cons.MakespanEnergy
import Verif.Lemmas.Cons.MakespanSlots
import Verif.Model.Cons.MakespanLinks
import Verif.Spec.MakespanLinks
import Verif.Lemmas.Cons.MakespanLinks
import Verif.Props.Cons.MakespanEnergy
import Verif.Spec.Element
import Verif.Model.Cons.Element
import Verif.Lemmas.Cons.Element
import Verif.Props.Cons.Element
import Verif.Model.Cons.Multiply
import Verif.Lemmas.Cons.Product
import Verif.Lemmas.Cons.Multiply
import Verif.Props.Cons.Multiply
import Verif.Model.Cons.Tabulation
import Verif.Lemmas.Cons.Tabulation
import Verif.Lemmas.Cons.TabulationServe
import Verif.Lemmas.Cons.TabulationPlans
import Verif.Lemmas.Cons.TabulationInstall
import Verif.Props.Cons.Tabulated
import Verif.Model.Cons.Stages
import Verif.Lemmas.Cons.Stages
import Verif.Model.Cons.Power
import Verif.Lemmas.Cons.Power
import Verif.Lemmas.Cons.PowerTable
import Verif.Props.Cons.Power
import Verif.Model.Cons.DivMod
import Verif.Lemmas.Cons.DivModArith
import Verif.Lemmas.Cons.DivMod
import Verif.Lemmas.Cons.DivModInstall
import Verif.Lemmas.Cons.DivModTable
import Verif.Lemmas.Cons.TabulationHidden
import Verif.Props.Cons.DivMod
import Verif.Model.SExpr
import Verif.Spec.SExpr
import Verif.Lemmas.SExpr
import Verif.Props.SExpr
import Verif.Model.Names
import Verif.Spec.Names
import Verif.Lemmas.Names
import Verif.Props.Names
import Verif.Model.Pb
import Verif.Model.PbSession
import Verif.Spec.Pb
import Verif.Lemmas.PbEmit
import Verif.Lemmas.PbMeans
import Verif.Lemmas.PbDefs
import Verif.Lemmas.PbBits
import Verif.Lemmas.PbSession
import Verif.Lemmas.PbHistory
import Verif.Lemmas.PbClause
import Verif.Props.Pb

/-! What every theorem named in MANIFEST.json depends on (printed during the build). -/

#print axioms Gcs.integer_operators_exact_or_throw
#print axioms Gcs.iDiv_iMod
#print axioms Gcs.addOverflows_exact
#print axioms Gcs.subOverflows_exact
#print axioms Gcs.mulOverflows_exact
#print axioms Gcs.checkedIntegerPower_exact
#print axioms Gcs.power2_exact
#print axioms Gcs.powLoop_exact
#print axioms Gcs.IntervalSet.erase_spec
#print axioms Gcs.IntervalSet.eraseRange_spec
#print axioms Gcs.IntervalSet.eraseLessThan_spec
#print axioms Gcs.IntervalSet.eraseGreaterThan_spec
#print axioms Gcs.IntervalSet.clear_spec
#print axioms Gcs.IntervalSet.insertAtEndOne_spec
#print axioms Gcs.IntervalSet.insertAtEnd_spec
#print axioms Gcs.IntervalSet.intersectWith_spec
#print axioms Gcs.IntervalSet.mutators_in_range
#print axioms Gcs.IntervalSet.canonical_unique
#print axioms Gcs.IntervalSet.insertAtEnd_at_upper_breaks
#print axioms Gcs.IntervalSet.contains_spec
#print axioms Gcs.IntervalSet.containsAnyOf_spec
#print axioms Gcs.IntervalSet.isEmpty_spec
#print axioms Gcs.IntervalSet.lower_spec
#print axioms Gcs.IntervalSet.upper_spec
#print axioms Gcs.IntervalSet.hasHoles_spec
#print axioms Gcs.IntervalSet.size_spec
#print axioms Gcs.IntervalSet.size_counts_members
#print axioms Gcs.IntervalSet.each_spec
#print axioms Gcs.IntervalSet.eachReversed_spec
#print axioms Gcs.IntervalSet.forEach_spec
#print axioms Gcs.IntervalSet.eachGap_spec
#print axioms Gcs.IntervalSet.eachGapInterval_spec
#print axioms Gcs.IntervalSet.eachIntervalMinus_spec_partial
#print axioms Gcs.IntervalSet.iteration_throws_at_range_ends
#print axioms Gcs.IntervalSet.iteration_total
#print axioms Gcs.VarId.addOffset_spec
#print axioms Gcs.VarId.subOffset_spec
#print axioms Gcs.VarId.negate_spec
#print axioms Gcs.VarId.operations_keep_underlying
#print axioms Gcs.Cond.not_holds
#print axioms Gcs.Cond.not_not
#print axioms Gcs.Cond.le_spec
#print axioms Gcs.Cond.gt_spec
#print axioms Gcs.Cond.ranges_spec
#print axioms Gcs.Cond.scalars_spec
#print axioms Gcs.Lit.not_holds
#print axioms Gcs.Lit.literal_folding_sound
#print axioms Gcs.Lit.isLiterally_sound
#print axioms Gcs.Lit.literal_folding_complete
#print axioms Gcs.infer_spec
#print axioms Gcs.infer_exact
#print axioms Gcs.infer_total
#print axioms Gcs.infer_can_overflow
#print axioms Gcs.infer_kind
#print axioms Gcs.lowerBound_spec
#print axioms Gcs.upperBound_spec
#print axioms Gcs.bounds_spec
#print axioms Gcs.inDomain_spec
#print axioms Gcs.hasSingleValue_spec
#print axioms Gcs.optionalSingleValue_spec
#print axioms Gcs.valueOf_spec
#print axioms Gcs.domainHasHoles_spec
#print axioms Gcs.domainSize_spec
#print axioms Gcs.copyOfValues_spec
#print axioms Gcs.domainIntersectsWith_spec
#print axioms Gcs.domainsIntersect_spec
#print axioms Gcs.eachValue_spec
#print axioms Gcs.eachValue_ascending_partial
#print axioms Gcs.eachValue_not_ascending
#print axioms Gcs.eachValueReversed_spec
#print axioms Gcs.testLiteral_spec
#print axioms Gcs.testLiteral_consistent
#print axioms Gcs.testLiteral_total
#print axioms Gcs.testLiteral_needs_rangeOK
#print axioms Gcs.backtrack_restores
#print axioms Gcs.aligned_run
#print axioms Gcs.inferAll_spec
#print axioms Gcs.guess_spec
#print axioms Gcs.requeue_wakes
#print axioms Gcs.endRound_wakes
#print axioms Gcs.guess_wakes
#print axioms Gcs.Built.cares
#print axioms Gcs.Built.sub
#print axioms Gcs.install_triggers
#print axioms Gcs.Queue.Inv.partition
#print axioms Gcs.Queue.enqueueIfIdle_spec
#print axioms Gcs.Queue.pop_spec
#print axioms Gcs.Queue.disableAll_spec
#print axioms Gcs.Queue.endRound_spec
#print axioms Gcs.Queue.rebuild_spec
#print axioms Gcs.Queue.backtrack_reenables
#print axioms Gcs.propagate_loses_nothing
#print axioms Gcs.propagate_keeps
#print axioms Gcs.propagate_shrinks
#print axioms Gcs.propagate_fixed_point
#print axioms Gcs.propagate_fix
#print axioms Gcs.propagate_terminates
#print axioms Gcs.propagate_loop_ends
#print axioms Gcs.loop_more
#print axioms Gcs.watch_mask_complete
#print axioms Gcs.endRound_fires
#print axioms Gcs.watch_payloads_delivered
#print axioms Gcs.propagate_fires_watches_partial
#print axioms Gcs.watches_restored
#print axioms Gcs.WatchDemo.claims_lose_watches
#print axioms Gcs.WatchDemo.claims_accept_nonsolution
#print axioms Gcs.nogoods_propagated_partial
#print axioms Gcs.nogoods_not_violated_partial
#print axioms Gcs.refined_nogoods_sound
#print axioms Gcs.scan_nogoods_sound
#print axioms Gcs.reported_are_solutions
#print axioms Gcs.solve_enumerates
#print axioms Gcs.problem_enumerates
#print axioms Gcs.stateful_enumerates
#print axioms Gcs.hidden_enumerates
#print axioms Gcs.enumeration_exactly_once
#print axioms Gcs.enumeration_no_repeats
#print axioms Gcs.solve_contract
#print axioms Gcs.enumeration_distinct
#print axioms Gcs.restarts_contract_scan
#print axioms Gcs.restarts_enumerate
#print axioms Gcs.restarts_optimise
#print axioms Gcs.problem_restarts
#print axioms Gcs.stateful_restarts
#print axioms Gcs.hidden_restarts
#print axioms Gcs.restarts_contract_partial
#print axioms Gcs.restarts_enumerate_partial
#print axioms Gcs.restarts_optimise_partial
#print axioms Gcs.Restart.claims_repeat_solution
#print axioms Gcs.optimisation_improves
#print axioms Gcs.optimisation_optimal
#print axioms Gcs.found_iff
#print axioms Gcs.solve_optimises
#print axioms Gcs.problem_optimises
#print axioms Gcs.stateful_optimises
#print axioms Gcs.hidden_optimises
#print axioms Gcs.completed_iff
#print axioms Gcs.uninterrupted_completes
#print axioms Gcs.stopped_is_prefix
#print axioms Gcs.search_ends
#print axioms Gcs.enough_exists
#print axioms Gcs.search_restores
#print axioms Gcs.statistics
#print axioms Gcs.luby_is_luby
#print axioms Gcs.luby_power
#print axioms Gcs.luby_le
#print axioms Gcs.cutoff_is_luby
#print axioms Gcs.cutoff_unbounded
#print axioms Gcs.advance_index
#print axioms Gcs.cutoff_zero_scale
#print axioms Gcs.smallestIn_branches
#print axioms Gcs.smallestOut_branches
#print axioms Gcs.largestIn_branches
#print axioms Gcs.largestOut_branches
#print axioms Gcs.smallestFirst_branches_partial
#print axioms Gcs.largestFirst_branches
#print axioms Gcs.median_branches
#print axioms Gcs.randomOrder_branches
#print axioms Gcs.randomOut_branches
#print axioms Gcs.randomOut_any
#print axioms Gcs.rejectInterval_branches
#print axioms Gcs.splitSmallestFirst_branches_partial
#print axioms Gcs.splitLargestFirst_branches_partial
#print axioms Gcs.splitRandom_branches_partial
#print axioms Gcs.smallestFirst_not_smallest_first
#print axioms Gcs.split_empty_branch
#print axioms Gcs.randomVar_picks
#print axioms Gcs.inOrderOf_chooses
#print axioms Gcs.inOrder_chooses
#print axioms Gcs.dom_chooses
#print axioms Gcs.domThenDeg_chooses
#print axioms Gcs.withSmallestValue_chooses
#print axioms Gcs.domWdeg_chooses
#print axioms Gcs.branchSequence_spec
#print axioms Gcs.branchSequence_branches
#print axioms Gcs.branchWith_spec
#print axioms Gcs.compare_right
#print axioms Gcs.lessThan_right
#print axioms Gcs.greaterThan_right
#print axioms Gcs.lessThan_self
#print axioms Gcs.equals_right
#print axioms Gcs.notEquals_right
#print axioms Gcs.notEqualsIff_right
#print axioms Gcs.linearEquality_right
#print axioms Gcs.linearNotEquals_right
#print axioms Gcs.linearNotEqualsIf_right
#print axioms Gcs.linearEqualityIf_partial
#print axioms Gcs.linearEqualityIff_partial
#print axioms Gcs.linearNotEqualsIff_partial
#print axioms Gcs.linearLessThanEqual_right
#print axioms Gcs.linearGreaterThanEqual_right
#print axioms Gcs.linearEqualityInc_right
#print axioms Gcs.linearNotEqualsInc_right
#print axioms Gcs.linearNotEqualsIfInc_right
#print axioms Gcs.linearEqualityIfInc_partial
#print axioms Gcs.linearEqualityIffInc_partial
#print axioms Gcs.linearLessThanEqualInc_right
#print axioms Gcs.linearGreaterThanEqualInc_right
#print axioms Gcs.sparseSet_remove
#print axioms Gcs.sparseSet_refines
#print axioms Gcs.linearSlack_enough
#print axioms Gcs.linear_tidy
#print axioms Gcs.linearTabulated_right
#print axioms Gcs.linearTabulated_means
#print axioms Gcs.linearLessThanEqual_consistent
#print axioms Gcs.Linear.linearEqualityIf_wrong
#print axioms Gcs.Linear.linearEqualityIff_wrong
#print axioms Gcs.Linear.linearNotEqualsIf_true_wrong
#print axioms Gcs.Linear.linearNotEqualsIf_false_wrong
#print axioms Gcs.Linear.linearEqualityIf_false_wrong
#print axioms Gcs.allDifferentExcept_right
#print axioms Gcs.allDifferent_right
#print axioms Gcs.allDifferentVC_right_partial
#print axioms Gcs.AllDifferent.vc_accepts_equal
#print axioms Gcs.symmetricAllDifferent_right
#print axioms Gcs.matching_prunes
#print axioms Gcs.matching_left
#print axioms Gcs.plus_right_partial
#print axioms Gcs.minus_right_partial
#print axioms Gcs.abs_right
#print axioms Gcs.arrayMin_right_partial
#print axioms Gcs.arrayMax_right_partial
#print axioms Gcs.minMax_right_partial
#print axioms Gcs.arrayMax_throws
#print axioms Gcs.arrayMax_throws_solution
#print axioms Gcs.arrayMin_throws
#print axioms Gcs.element_right
#print axioms Gcs.element_one
#print axioms Gcs.element_two
#print axioms Gcs.isElement_one
#print axioms Gcs.isElement_two
#print axioms Gcs.multiply_right_partial
#print axioms Gcs.squareRoot_right
#print axioms Gcs.squareRootUp_right
#print axioms Gcs.plus_right
#print axioms Gcs.minus_right
#print axioms Gcs.multiply_right
#print axioms Gcs.plus_means
#print axioms Gcs.minus_means
#print axioms Gcs.multiply_means
#print axioms Gcs.power_right_partial
#print axioms Gcs.power_means
#print axioms Gcs.Power.open_of_var
#print axioms Gcs.powerTable_right
#print axioms Gcs.powerTable_throws
#print axioms Gcs.powerTable_means
#print axioms Gcs.Power.Demo.power_constants_unchecked
#print axioms Gcs.Power.Demo.power_zero_unchecked
#print axioms Gcs.Power.Demo.power_one_unchecked
#print axioms Gcs.Power.Demo.power_63_loses
#print axioms Gcs.DivMod.truncated
#print axioms Gcs.divMod_magnitudes
#print axioms Gcs.divide_right
#print axioms Gcs.divide_means
#print axioms Gcs.modulus_right
#print axioms Gcs.modulus_means
#print axioms Gcs.and_right
#print axioms Gcs.or_right
#print axioms Gcs.parityOdd_right
#print axioms Gcs.increasing_right
#print axioms Gcs.strictlyIncreasing_right
#print axioms Gcs.decreasing_right
#print axioms Gcs.strictlyDecreasing_right
#print axioms Gcs.allEqual_reports_unequal
#print axioms Gcs.allEqual_reports_shifted
#print axioms Gcs.allEqual_partial
#print axioms Gcs.atMostOne_right
#print axioms Gcs.in_right
#print axioms Gcs.count_right
#print axioms Gcs.nValue_right
#print axioms Gcs.among_right_partial
#print axioms Gcs.among_sound_partial
#print axioms Gcs.among_reports_too_many
#print axioms Gcs.among_reports_too_few
#print axioms Gcs.among_counts_itself
#print axioms Gcs.inverse_right_partial
#print axioms Gcs.Inverse.loses_solutions
#print axioms Gcs.valuePrecede_right
#print axioms Gcs.seqPrecedeChain_right
#print axioms Gcs.lex_right
#print axioms Gcs.lexGreater_iff
#print axioms Gcs.table_right
#print axioms Gcs.table_means
#print axioms Gcs.table_consistent
#print axioms Gcs.negativeTable_sound
#print axioms Gcs.negativeTable_detects
#print axioms Gcs.NegativeTable.accepts_forbidden
#print axioms Gcs.Pb.bits_represent
#print axioms Gcs.Pb.bits_fit
#print axioms Gcs.Pb.literals_mean
#print axioms Gcs.Pb.values_determined
#print axioms Gcs.Pb.every_value
#print axioms Gcs.Pb.compact_needs_bounds
#print axioms Gcs.Pb.row_means
#print axioms Gcs.Pb.reified_row_means
#print axioms Gcs.Pb.equality_means
#print axioms Gcs.Pb.two_way_means
#print axioms Gcs.Pb.clause_row_means
#print axioms Gcs.Pb.rows_mean
#print axioms Gcs.Pb.solutions_kept
#print axioms Gcs.Pb.view_labels_clash
#print axioms Gcs.SExpr.parse_iff
#print axioms Gcs.SExpr.parse_refuses
#print axioms Gcs.SExpr.parseSeq_iff
#print axioms Gcs.SExpr.text_unique
#print axioms Gcs.SExpr.round_trip
#print axioms Gcs.SExpr.round_trip_spaced
#print axioms Gcs.SExpr.round_trip_bare
#print axioms Gcs.SExpr.read_write_read
#print axioms Gcs.SExpr.write_read_write
#print axioms Gcs.SExpr.round_trip_wrong
#print axioms Gcs.SExpr.round_trip_other
#print axioms Gcs.Names.checkName_iff
#print axioms Gcs.Names.variable_accepted_iff
#print axioms Gcs.Names.named_accepted_iff
#print axioms Gcs.Names.variable_named
#print axioms Gcs.Names.constraint_named
#print axioms Gcs.Names.variables_distinct
#print axioms Gcs.Names.constraints_distinct
#print axioms Gcs.Names.given_names_unique
#print axioms Gcs.Names.variable_names
#print axioms Gcs.Names.call_keeps
#print axioms Gcs.Names.history_keeps
#print axioms Gcs.Names.vector_names
#print axioms Gcs.Names.autonumbered
#print axioms Gcs.Names.same_name_throws
#print axioms Gcs.Names.anonymous_shared
#print axioms Gcs.Names.refused_stays
#print axioms Gcs.initialise_keeps_solutions
#print axioms Gcs.allDifferent_consistent
#print axioms Gcs.allDifferentVC_consistent
#print axioms Gcs.element_index_consistent
#print axioms Gcs.element_result_consistent
#print axioms Gcs.Tabulates.consistent
#print axioms Gcs.regular_consistent
#print axioms Gcs.mdd_consistent
#print axioms Gcs.regular_right
#print axioms Gcs.regularMaps_right
#print axioms Gcs.regularRows_right
#print axioms Gcs.regular_posts
#print axioms Gcs.mdd_right_partial
#print axioms Gcs.mdd_throws
#print axioms Gcs.mdd_empty_wrong
#print axioms Gcs.stored_fresh
#print axioms Gcs.stored_left
#print axioms Gcs.globalCardinality_right_partial
#print axioms Gcs.globalCardinality_short
#print axioms Gcs.globalCardinality_twice_wrong
#print axioms Gcs.globalCardinality_gac_right_partial
#print axioms Gcs.globalCardinality_gac_unsorted_wrong
#print axioms Gcs.globalCardinality_gac_twice_wrong
#print axioms Gcs.circuit_prevent_right_partial
#print axioms Gcs.circuit_scc_right_partial
#print axioms Gcs.circuit_scc_empty
#print axioms Gcs.Circuit.circuit_scc_hangs
#print axioms Gcs.disjunctive2D_right
#print axioms Gcs.disjunctive2D_refuses
#print axioms Gcs.minDistance_right
#print axioms Gcs.minDistance_refuses
#print axioms Gcs.knapsack_right_partial
#print axioms Gcs.knapsack_refuses
#print axioms Gcs.knapsack_short_wrong
#print axioms Gcs.sort_right
#print axioms Gcs.sort_refuses
#print axioms Gcs.argSort_right_partial
#print axioms Gcs.argSort_means
#print axioms Gcs.argSort_refuses
#print axioms Gcs.argSort_unique
#print axioms Gcs.ArgSort.argSort_extreme_wrong
#print axioms Gcs.smartTable_right_partial
#print axioms Gcs.smartTable_refuses
#print axioms Gcs.lexSmartTable_right_partial
#print axioms Gcs.atMostOneSmartTable_right_partial
#print axioms Gcs.SmartTable.Wrong.smartTable_cycle_wrong
#print axioms Gcs.SmartTable.Wrong.smartTable_view_accepts_wrong
#print axioms Gcs.SmartTable.Wrong.smartTable_view_rejects_wrong
#print axioms Gcs.SmartTable.Wrong.smartTable_repeated_wrong
#print axioms Gcs.SmartTable.Wrong.smartTable_const_throws
#print axioms Gcs.SmartTable.Wrong.smartTable_missing_throws
#print axioms Gcs.SmartTable.Wrong.lexSmartTable_longer_wrong
#print axioms Gcs.binPacking_loads_right_partial
#print axioms Gcs.binPacking_capacities_right_partial
#print axioms Gcs.binPacking_refuses
#print axioms Gcs.binPacking_total_ub
#print axioms Gcs.binPacking_sweep_idle
#print axioms Gcs.BinPacking.Demo.binPacking_strategies_differ
#print axioms Gcs.regex_language
#print axioms Gcs.regex_unambiguous
#print axioms Gcs.regex_total_partial
#print axioms Gcs.regex_wellFormed
#print axioms Gcs.regex_reference
#print axioms Gcs.regularRegex_right
#print axioms Gcs.regularRegex_posts_partial
#print axioms Gcs.regularRegex_consistent
#print axioms Gcs.regex_large
#print axioms Gcs.regex_largest
#print axioms Gcs.cumulative_right_partial
#print axioms Gcs.cumulative_refuses
#print axioms Gcs.Cumulative.Demo.needs_timeTable
#print axioms Gcs.disjunctive_right_partial
#print axioms Gcs.disjunctive_refuses
#print axioms Gcs.regularStrategy_right_partial
#print axioms Gcs.regularStrategy_refuses
#print axioms Gcs.regularBacchus_consistent
#print axioms Gcs.regularStrategy_empty_wrong
#print axioms Gcs.autoTable_tuples
#print axioms Gcs.autoTable_fails
#print axioms Gcs.autoTable_enumerates_partial
#print axioms Gcs.autoTable_item
#print axioms Gcs.autoTable_implied
#print axioms Gcs.degree_counts
#print axioms Gcs.disabled_exactly
#print axioms Gcs.constraint_indices
#print axioms Gcs.constraints_of_variable
#print axioms Gcs.scope_of_constraint
#print axioms Gcs.scope_of_propagator
#print axioms Gcs.weights_read
#print axioms Gcs.merge_entries
#print axioms Gcs.combine_is
#print axioms Gcs.classic_degree
#print axioms Gcs.constant_degree
#print axioms Gcs.history_degree
#print axioms Gcs.history_bounds
#print axioms Gcs.refined_degree
#print axioms Gcs.classic_carried
#print axioms Gcs.history_carried
#print axioms Gcs.refined_carried
#print axioms Gcs.root_degree_partial
#print axioms Gcs.Weighting.Demo.root_degree_differs
#print axioms Gcs.difference_right_partial
#print axioms Gcs.difference_refuses
#print axioms Gcs.difference_consistent
#print axioms Gcs.simplify_right
#print axioms Gcs.difference_root_partial
#print axioms Gcs.interval_tree_right
#print axioms Gcs.range_literals_right
#print axioms Gcs.range_links_immediate
#print axioms Gcs.order_literals_right
#print axioms Gcs.makespan_bound_holds
#print axioms Gcs.makespan_bound_wider
#print axioms Gcs.makespan_bound_right
#print axioms Gcs.makespan_bound_strongest
#print axioms Gcs.window_energy_right
#print axioms Gcs.window_energy_not_least
#print axioms Gcs.time_slots_right
#print axioms Gcs.makespan_links_right
