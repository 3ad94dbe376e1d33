{
 "claims": [
  {
   "property": "C01",
   "status": "proved",
   "theorems": [
    "Gcs.integer_operators_exact_or_throw",
    "Gcs.iDiv_iMod"
   ],
   "note": "All nine operators, all 64-bit operands; division truncates."
  },
  {
   "property": "C02",
   "status": "proved",
   "theorems": [
    "Gcs.addOverflows_exact",
    "Gcs.subOverflows_exact",
    "Gcs.mulOverflows_exact"
   ],
   "note": "Any two's complement width; raw arithmetic gives ub when out of range and the theorems show ok."
  },
  {
   "property": "C03",
   "status": "proved",
   "theorems": [
    "Gcs.checkedIntegerPower_exact",
    "Gcs.power2_exact",
    "Gcs.powLoop_exact"
   ],
   "note": ""
  },
  {
   "property": "C04",
   "status": "proved",
   "theorems": [
    "Gcs.IntervalSet.erase_spec",
    "Gcs.IntervalSet.eraseRange_spec",
    "Gcs.IntervalSet.eraseLessThan_spec",
    "Gcs.IntervalSet.eraseGreaterThan_spec",
    "Gcs.IntervalSet.clear_spec",
    "Gcs.IntervalSet.insertAtEndOne_spec",
    "Gcs.IntervalSet.insertAtEnd_spec",
    "Gcs.IntervalSet.intersectWith_spec",
    "Gcs.IntervalSet.mutators_in_range",
    "Gcs.IntervalSet.canonical_unique",
    "Gcs.IntervalSet.insertAtEnd_at_upper_breaks"
   ],
   "note": "insert_at_end needs value > upper(): the documented value == upper() case breaks the invariant (insertAtEnd_at_upper_breaks)."
  },
  {
   "property": "C05",
   "status": "proved",
   "theorems": [
    "Gcs.IntervalSet.contains_spec",
    "Gcs.IntervalSet.containsAnyOf_spec",
    "Gcs.IntervalSet.isEmpty_spec",
    "Gcs.IntervalSet.lower_spec",
    "Gcs.IntervalSet.upper_spec",
    "Gcs.IntervalSet.hasHoles_spec",
    "Gcs.IntervalSet.size_spec",
    "Gcs.IntervalSet.size_counts_members"
   ],
   "note": "lower/upper of an empty set is ub."
  },
  {
   "property": "C06",
   "status": "proved",
   "theorems": [
    "Gcs.IntervalSet.each_spec",
    "Gcs.IntervalSet.eachReversed_spec",
    "Gcs.IntervalSet.forEach_spec",
    "Gcs.IntervalSet.eachGap_spec",
    "Gcs.IntervalSet.eachGapInterval_spec",
    "Gcs.IntervalSet.eachIntervalMinus_spec_partial"
   ],
   "note": "each_interval_minus proved when the other set does not contain the largest integer; otherwise it may throw (C07)."
  },
  {
   "property": "C07",
   "status": "partial",
   "theorems": [
    "Gcs.IntervalSet.iteration_throws_at_range_ends",
    "Gcs.IntervalSet.each_spec",
    "Gcs.IntervalSet.eachReversed_spec",
    "Gcs.IntervalSet.eachIntervalMinus_spec_partial",
    "Gcs.IntervalSet.iteration_total",
    "Gcs.IntervalSet.mutators_in_range"
   ],
   "note": "False of the code as stated: witnesses at the range ends. each/each_reversed characterised exactly; the rest total away from the ends."
  },
  {
   "property": "C08",
   "status": "proved",
   "theorems": [
    "Gcs.VarId.addOffset_spec",
    "Gcs.VarId.subOffset_spec",
    "Gcs.VarId.negate_spec",
    "Gcs.VarId.operations_keep_underlying"
   ],
   "note": "Right value for every assignment, or overflow exception."
  },
  {
   "property": "C09",
   "status": "proved",
   "theorems": [
    "Gcs.Cond.not_holds",
    "Gcs.Cond.not_not",
    "Gcs.Cond.le_spec",
    "Gcs.Cond.gt_spec",
    "Gcs.Cond.ranges_spec",
    "Gcs.Cond.scalars_spec",
    "Gcs.Lit.not_holds"
   ],
   "note": ""
  },
  {
   "property": "C10",
   "status": "proved",
   "theorems": [
    "Gcs.Lit.literal_folding_sound",
    "Gcs.Lit.isLiterally_sound",
    "Gcs.Lit.literal_folding_complete"
   ],
   "note": ""
  },
  {
   "property": "C11",
   "status": "proved",
   "theorems": [
    "Gcs.infer_spec",
    "Gcs.infer_exact",
    "Gcs.infer_total",
    "Gcs.infer_can_overflow"
   ],
   "note": "Either exact or the overflow exception, for all 64-bit constants; total for constants up to 2^61. Witness that the exception is possible where an exact answer exists."
  },
  {
   "property": "C12",
   "status": "proved",
   "theorems": [
    "Gcs.infer_kind"
   ],
   "note": "Each kind characterised by iff."
  },
  {
   "property": "C13",
   "status": "proved",
   "theorems": [
    "Gcs.lowerBound_spec",
    "Gcs.upperBound_spec",
    "Gcs.bounds_spec",
    "Gcs.inDomain_spec",
    "Gcs.hasSingleValue_spec",
    "Gcs.optionalSingleValue_spec",
    "Gcs.valueOf_spec",
    "Gcs.domainHasHoles_spec",
    "Gcs.domainSize_spec",
    "Gcs.copyOfValues_spec",
    "Gcs.domainIntersectsWith_spec",
    "Gcs.domainsIntersect_spec"
   ],
   "note": "Stated through the set of values the variable takes under assignments within the domains; overflow only if the viewed values do not fit 64 bits."
  },
  {
   "property": "C14",
   "status": "partial",
   "theorems": [
    "Gcs.eachValue_spec",
    "Gcs.eachValue_ascending_partial",
    "Gcs.eachValue_not_ascending",
    "Gcs.eachValueReversed_spec"
   ],
   "note": "Exactly-once holds for every view; the documented ascending order fails for negated views (witness) and holds otherwise. Snapshot semantics is by construction (generator holds a copy)."
  },
  {
   "property": "C15",
   "status": "proved",
   "theorems": [
    "Gcs.testLiteral_spec",
    "Gcs.testLiteral_consistent",
    "Gcs.testLiteral_total",
    "Gcs.testLiteral_needs_rangeOK"
   ],
   "note": "Range conditions need lower <= upper, which in_range()/not_in_range() enforce; witness without."
  },
  {
   "property": "C16",
   "status": "proved",
   "theorems": [
    "Gcs.backtrack_restores",
    "Gcs.aligned_run"
   ],
   "note": "Any history of operations that return normally, with nested epochs and backtracks."
  },
  {
   "property": "C17",
   "status": "proved",
   "theorems": [
    "Gcs.inferAll_spec",
    "Gcs.guess_spec"
   ],
   "note": ""
  },
  {
   "property": "C18",
   "status": "proved",
   "theorems": [
    "Gcs.requeue_wakes",
    "Gcs.endRound_wakes",
    "Gcs.guess_wakes",
    "Gcs.Built.cares",
    "Gcs.Built.sub",
    "Gcs.install_triggers"
   ],
   "note": "Trigger tables as built by install; who is ready after one inference, after a round, and after seeding from guesses, each by iff. Refined watches are not looked at in rounds with an honoured idempotence claim (see C23)."
  },
  {
   "property": "C19",
   "status": "proved",
   "theorems": [
    "Gcs.Queue.Inv.partition",
    "Gcs.Queue.enqueueIfIdle_spec",
    "Gcs.Queue.pop_spec",
    "Gcs.Queue.disableAll_spec",
    "Gcs.Queue.endRound_spec",
    "Gcs.Queue.rebuild_spec",
    "Gcs.Queue.backtrack_reenables"
   ],
   "note": "The queue operations keep an exact partition of the propagators; a disabled one is never ready until the idle boundary is restored."
  },
  {
   "property": "C20",
   "status": "proved",
   "theorems": [
    "Gcs.propagate_loses_nothing",
    "Gcs.propagate_keeps",
    "Gcs.propagate_shrinks"
   ],
   "note": "Arbitrary propagation functions, abort schedules, roots and children."
  },
  {
   "property": "C21",
   "status": "proved",
   "theorems": [
    "Gcs.propagate_fixed_point",
    "Gcs.propagate_fix"
   ],
   "note": "Through the record of what happened; propagate_fix is the general form with propagator-specific contracts."
  },
  {
   "property": "C22",
   "status": "proved",
   "theorems": [
    "Gcs.propagate_terminates",
    "Gcs.propagate_loop_ends",
    "Gcs.loop_more"
   ],
   "note": "No undefined behaviour; explicit bound on the number of propagator calls; the model's own bound on turns is shown not to matter."
  },
  {
   "property": "C23",
   "status": "partial",
   "theorems": [
    "Gcs.watch_mask_complete",
    "Gcs.endRound_fires",
    "Gcs.watch_payloads_delivered",
    "Gcs.propagate_fires_watches_partial",
    "Gcs.watches_restored",
    "Gcs.WatchDemo.claims_lose_watches",
    "Gcs.WatchDemo.claims_accept_nonsolution"
   ],
   "note": "Proved when no claim of idempotence is honoured. With honoured claims the property is false of the code: the two negative theorems give a concrete call that misses a wake-up, and a search that then accepts a non-solution."
  },
  {
   "property": "C24",
   "status": "partial",
   "theorems": [
    "Gcs.nogoods_propagated_partial",
    "Gcs.nogoods_not_violated_partial",
    "Gcs.refined_nogoods_sound",
    "Gcs.scan_nogoods_sound"
   ],
   "note": "Two-watched-literal invariant at every node of any session of root calls, children, backtracks and restarts, proved when other propagators make no honoured idempotence claims. With such claims it is false of the code (C23, C27)."
  },
  {
   "property": "C25",
   "status": "proved",
   "theorems": [
    "Gcs.reported_are_solutions",
    "Gcs.solve_enumerates",
    "Gcs.problem_enumerates",
    "Gcs.stateful_enumerates",
    "Gcs.hidden_enumerates"
   ],
   "note": "For the search over any engine meeting the search contract; the contract is proved for all engines made of sound, checking propagators (solve_contract)."
  },
  {
   "property": "C26",
   "status": "proved",
   "theorems": [
    "Gcs.enumeration_exactly_once",
    "Gcs.enumeration_no_repeats",
    "Gcs.solve_contract",
    "Gcs.solve_enumerates",
    "Gcs.problem_enumerates",
    "Gcs.stateful_enumerates",
    "Gcs.enumeration_distinct",
    "Gcs.hidden_enumerates"
   ],
   "note": "hidden_enumerates: also exactly once as far as the variables of the user are concerned, whatever auxiliary variables constraints have added."
  },
  {
   "property": "C27",
   "status": "partial",
   "theorems": [
    "Gcs.restarts_contract_scan",
    "Gcs.restarts_enumerate",
    "Gcs.restarts_optimise",
    "Gcs.problem_restarts",
    "Gcs.stateful_restarts",
    "Gcs.hidden_restarts",
    "Gcs.restarts_contract_partial",
    "Gcs.restarts_enumerate_partial",
    "Gcs.restarts_optimise_partial",
    "Gcs.Restart.claims_repeat_solution"
   ],
   "note": "Proved without restriction for the scanning nogood propagator. For the default one, with refined watches, proved when no idempotence claims are honoured; otherwise false of the code: claims_repeat_solution is a search that reports a solution twice."
  },
  {
   "property": "C28",
   "status": "proved",
   "theorems": [
    "Gcs.optimisation_improves",
    "Gcs.optimisation_optimal",
    "Gcs.found_iff",
    "Gcs.solve_optimises",
    "Gcs.problem_optimises",
    "Gcs.stateful_optimises",
    "Gcs.hidden_optimises"
   ],
   "note": ""
  },
  {
   "property": "C29",
   "status": "proved",
   "theorems": [
    "Gcs.completed_iff",
    "Gcs.uninterrupted_completes",
    "Gcs.stopped_is_prefix",
    "Gcs.search_ends",
    "Gcs.enough_exists"
   ],
   "note": "The abort flag is assumed to stay set once set."
  },
  {
   "property": "C30",
   "status": "proved",
   "theorems": [
    "Gcs.search_restores"
   ],
   "note": ""
  },
  {
   "property": "C31",
   "status": "proved",
   "theorems": [
    "Gcs.statistics"
   ],
   "note": ""
  },
  {
   "property": "C32",
   "status": "proved",
   "theorems": [
    "Gcs.luby_is_luby",
    "Gcs.luby_power",
    "Gcs.luby_le",
    "Gcs.cutoff_is_luby",
    "Gcs.cutoff_unbounded",
    "Gcs.advance_index",
    "Gcs.cutoff_zero_scale"
   ],
   "note": "Cutoffs modulo 2^64 as in the code; scale 0 gives cutoff 0 for ever (cutoff_zero_scale)."
  },
  {
   "property": "C33",
   "status": "partial",
   "theorems": [
    "Gcs.smallestIn_branches",
    "Gcs.smallestOut_branches",
    "Gcs.largestIn_branches",
    "Gcs.largestOut_branches",
    "Gcs.smallestFirst_branches_partial",
    "Gcs.largestFirst_branches",
    "Gcs.median_branches",
    "Gcs.randomOrder_branches",
    "Gcs.randomOut_branches",
    "Gcs.randomOut_any",
    "Gcs.rejectInterval_branches",
    "Gcs.splitSmallestFirst_branches_partial",
    "Gcs.splitLargestFirst_branches_partial",
    "Gcs.splitRandom_branches_partial",
    "Gcs.smallestFirst_not_smallest_first",
    "Gcs.split_empty_branch"
   ],
   "note": "False of the code for negated views: smallest_first goes largest first, and the split orders give an empty branch when there are two or three values (witnesses). Proved for everything else."
  },
  {
   "property": "C34",
   "status": "proved",
   "theorems": [
    "Gcs.randomVar_picks",
    "Gcs.inOrderOf_chooses",
    "Gcs.inOrder_chooses",
    "Gcs.dom_chooses",
    "Gcs.domThenDeg_chooses",
    "Gcs.withSmallestValue_chooses",
    "Gcs.domWdeg_chooses"
   ],
   "note": "dom_wdeg with whole-number weights (floating point rounding not modelled)."
  },
  {
   "property": "C35",
   "status": "proved",
   "theorems": [
    "Gcs.branchSequence_spec",
    "Gcs.branchSequence_branches",
    "Gcs.branchWith_spec"
   ],
   "note": ""
  },
  {
   "property": "C36",
   "status": "proved",
   "theorems": [
    "Gcs.compare_right",
    "Gcs.lessThan_right",
    "Gcs.greaterThan_right",
    "Gcs.lessThan_self"
   ],
   "note": "What is installed loses no solution and enforces the constraint, for every reification; with problem_enumerates this is about the solutions reported (Props/Cons/Demo.lean)."
  },
  {
   "property": "C37",
   "status": "proved",
   "theorems": [
    "Gcs.equals_right",
    "Gcs.notEquals_right",
    "Gcs.notEqualsIff_right"
   ],
   "note": "Including domains with holes and views."
  },
  {
   "property": "C38",
   "status": "partial",
   "theorems": [
    "Gcs.linearEquality_right",
    "Gcs.linearNotEquals_right",
    "Gcs.linearNotEqualsIf_right",
    "Gcs.linearEqualityIf_partial",
    "Gcs.linearEqualityIff_partial",
    "Gcs.linearNotEqualsIff_partial",
    "Gcs.linearLessThanEqual_right",
    "Gcs.linearGreaterThanEqual_right",
    "Gcs.linearEqualityInc_right",
    "Gcs.linearNotEqualsInc_right",
    "Gcs.linearNotEqualsIfInc_right",
    "Gcs.linearEqualityIfInc_partial",
    "Gcs.linearEqualityIffInc_partial",
    "Gcs.linearLessThanEqualInc_right",
    "Gcs.linearGreaterThanEqualInc_right",
    "Gcs.sparseSet_remove",
    "Gcs.sparseSet_refines",
    "Gcs.linearSlack_enough",
    "Gcs.linear_tidy",
    "Gcs.linearTabulated_right",
    "Gcs.linearTabulated_means",
    "Gcs.linearLessThanEqual_consistent",
    "Gcs.Linear.linearEqualityIf_wrong",
    "Gcs.Linear.linearEqualityIff_wrong",
    "Gcs.Linear.linearNotEqualsIf_true_wrong",
    "Gcs.Linear.linearNotEqualsIf_false_wrong",
    "Gcs.Linear.linearEqualityIf_false_wrong"
   ],
   "note": "Proved for the propagator without state, and for the incremental propagator that sums with at least 8 terms use; that its vector of positions, which is not restored on backtracking, stands for the terms that are left in all histories, is proved too. For slack watches (off by default) it is proved that the terms chosen are enough. Equalities under all forms of reification are also proved right with the table they add. False of the code for LinearEqualityIf/Iff when the sum is a constant less than the value, and for LinearEqualityIf/LinearNotEqualsIf with literals that are not conditions on variables: searches showing the wrong results are proved, and the rest is proved right."
  },
  {
   "property": "C39",
   "status": "partial",
   "theorems": [
    "Gcs.allDifferentExcept_right",
    "Gcs.allDifferent_right",
    "Gcs.allDifferentVC_right_partial",
    "Gcs.AllDifferent.vc_accepts_equal",
    "Gcs.symmetricAllDifferent_right",
    "Gcs.matching_prunes",
    "Gcs.matching_left"
   ],
   "note": "Proved for AllDifferentExcept, SymmetricAllDifferent and for AllDifferent at its default consistency, staged or not. At the value-consistency level AllDifferent is false of the code when a variable is fixed when posted: AllDifferent.vc_accepts_equal is the witness and allDifferentVC_right_partial excludes that case."
  },
  {
   "property": "C40",
   "status": "partial",
   "theorems": [
    "Gcs.plus_right_partial",
    "Gcs.minus_right_partial",
    "Gcs.abs_right",
    "Gcs.arrayMin_right_partial",
    "Gcs.arrayMax_right_partial",
    "Gcs.minMax_right_partial",
    "Gcs.arrayMax_throws",
    "Gcs.arrayMax_throws_solution",
    "Gcs.arrayMin_throws",
    "Gcs.element_right",
    "Gcs.element_one",
    "Gcs.element_two",
    "Gcs.isElement_one",
    "Gcs.isElement_two",
    "Gcs.multiply_right_partial",
    "Gcs.squareRoot_right",
    "Gcs.squareRootUp_right",
    "Gcs.plus_right",
    "Gcs.minus_right",
    "Gcs.multiply_right",
    "Gcs.plus_means",
    "Gcs.minus_means",
    "Gcs.multiply_means",
    "Gcs.power_right_partial",
    "Gcs.power_means",
    "Gcs.Power.open_of_var",
    "Gcs.powerTable_right",
    "Gcs.powerTable_throws",
    "Gcs.powerTable_means",
    "Gcs.Power.Demo.power_constants_unchecked",
    "Gcs.Power.Demo.power_zero_unchecked",
    "Gcs.Power.Demo.power_one_unchecked",
    "Gcs.Power.Demo.power_63_loses",
    "Gcs.DivMod.truncated",
    "Gcs.divMod_magnitudes",
    "Gcs.divide_right",
    "Gcs.divide_means",
    "Gcs.modulus_right",
    "Gcs.modulus_means"
   ],
   "note": "Proved for Abs, Element in any number of dimensions, and for Plus, Minus and Multiply at all levels of consistency, with the hidden selector of the tables they add. For Multiply the values of the result must fit. ArrayMin and ArrayMax are right if no variable of the array is another view of the variable of the result; otherwise they may throw an exception, shown for a problem that has a solution. Power is right with exponents that are not constants; with constant ones it is right except for equalities between things other than different variables (accepted if too small: power_constants_unchecked, power_zero_unchecked, power_one_unchecked) and the result -2^63 of (-2)^63, which is lost (power_63_loses). Divide and Modulus are right at all levels; they throw an exception where the absolute value of an operand needs 63 bits."
  },
  {
   "property": "C41",
   "status": "partial",
   "theorems": [
    "Gcs.and_right",
    "Gcs.or_right",
    "Gcs.parityOdd_right",
    "Gcs.increasing_right",
    "Gcs.strictlyIncreasing_right",
    "Gcs.decreasing_right",
    "Gcs.strictlyDecreasing_right",
    "Gcs.allEqual_reports_unequal",
    "Gcs.allEqual_reports_shifted",
    "Gcs.allEqual_partial",
    "Gcs.atMostOne_right",
    "Gcs.in_right",
    "Gcs.count_right",
    "Gcs.nValue_right",
    "Gcs.among_right_partial",
    "Gcs.among_sound_partial",
    "Gcs.among_reports_too_many",
    "Gcs.among_reports_too_few",
    "Gcs.among_counts_itself",
    "Gcs.inverse_right_partial",
    "Gcs.Inverse.loses_solutions",
    "Gcs.valuePrecede_right",
    "Gcs.seqPrecedeChain_right",
    "Gcs.lex_right",
    "Gcs.lexGreater_iff"
   ],
   "note": "Proved for And, Or, ParityOdd, the Increasing family, AtMostOne, In, Count, NValue, ValuePrecede, SeqPrecedeChain and the Lex comparisons. False of the code for AllEqual and Among: searches that report assignments violating them, and what does hold (allEqual_partial, among_right_partial, among_sound_partial). Inverse is right if both lists are indexed from the same number on (inverse_right_partial) and loses solutions otherwise (Inverse.loses_solutions)."
  },
  {
   "property": "C42",
   "status": "partial",
   "theorems": [
    "Gcs.table_right",
    "Gcs.table_means",
    "Gcs.table_consistent",
    "Gcs.negativeTable_sound",
    "Gcs.negativeTable_detects",
    "Gcs.NegativeTable.accepts_forbidden"
   ],
   "note": "Table is right and generalised arc consistent. NegativeTable never loses a solution, but accepts forbidden tuples when posted with a propagator that claims to be idempotent (accepts_forbidden, a concrete solve). SmartTable is not modelled."
  },
  {
   "property": "C43",
   "status": "proved",
   "theorems": [
    "Gcs.Pb.bits_represent",
    "Gcs.Pb.bits_fit",
    "Gcs.Pb.literals_mean",
    "Gcs.Pb.values_determined",
    "Gcs.Pb.every_value",
    "Gcs.Pb.compact_needs_bounds"
   ],
   "note": "For all histories of calls that set up variables, ask for literals, views and constraints, before and during the proof. Variables without rows for their bounds are excluded from the compact encoding, where the claim is false (compact_needs_bounds)."
  },
  {
   "property": "C44",
   "status": "proved",
   "theorems": [
    "Gcs.Pb.row_means",
    "Gcs.Pb.reified_row_means",
    "Gcs.Pb.equality_means",
    "Gcs.Pb.two_way_means",
    "Gcs.Pb.clause_row_means",
    "Gcs.Pb.rows_mean",
    "Gcs.Pb.solutions_kept",
    "Gcs.Pb.view_labels_clash"
   ],
   "note": "Rows as weighted literals and a degree, not as text. view_labels_clash: views of different variables may get the same label for their rows."
  },
  {
   "property": "C45",
   "status": "proved",
   "theorems": [
    "Gcs.SExpr.parse_iff",
    "Gcs.SExpr.parse_refuses",
    "Gcs.SExpr.parseSeq_iff",
    "Gcs.SExpr.text_unique",
    "Gcs.SExpr.round_trip",
    "Gcs.SExpr.round_trip_spaced",
    "Gcs.SExpr.round_trip_bare",
    "Gcs.SExpr.read_write_read",
    "Gcs.SExpr.write_read_write",
    "Gcs.SExpr.round_trip_wrong",
    "Gcs.SExpr.round_trip_other"
   ],
   "note": "Against a grammar of its own, for all texts and all expressions made of proper atoms. Atoms that are not tokens can be built and do not survive: shown by round_trip_wrong and round_trip_other."
  },
  {
   "property": "C46",
   "status": "proved",
   "theorems": [
    "Gcs.Names.checkName_iff",
    "Gcs.Names.variable_accepted_iff",
    "Gcs.Names.named_accepted_iff",
    "Gcs.Names.variable_named",
    "Gcs.Names.constraint_named",
    "Gcs.Names.variables_distinct",
    "Gcs.Names.constraints_distinct",
    "Gcs.Names.given_names_unique",
    "Gcs.Names.variable_names",
    "Gcs.Names.call_keeps",
    "Gcs.Names.history_keeps",
    "Gcs.Names.vector_names",
    "Gcs.Names.autonumbered",
    "Gcs.Names.same_name_throws",
    "Gcs.Names.anonymous_shared",
    "Gcs.Names.refused_stays"
   ],
   "note": "For all histories of calls, including ones that throw; uniqueness of numbers up to 2^64 of them. The documentation says that names need not be unique: same_name_throws. An anonymous variable and an anonymous constraint may both print as _1: anonymous_shared."
  },
  {
   "property": "C47",
   "status": "proved",
   "theorems": [
    "Gcs.compare_right",
    "Gcs.equals_right",
    "Gcs.lex_right"
   ],
   "note": "All five reification kinds; the dispatcher itself is verified for arbitrary passes (Gcs.dispatcher_posts), with constraint states too (Gcs.dispatcher_served)."
  },
  {
   "property": "C48",
   "status": "proved",
   "theorems": [
    "Gcs.initialise_keeps_solutions"
   ],
   "note": ""
  },
  {
   "property": "C49",
   "status": "proved",
   "theorems": [
    "Gcs.allDifferent_consistent",
    "Gcs.allDifferentVC_consistent",
    "Gcs.matching_prunes",
    "Gcs.matching_left",
    "Gcs.table_consistent",
    "Gcs.element_index_consistent",
    "Gcs.element_result_consistent",
    "Gcs.Tabulates.consistent",
    "Gcs.regular_consistent",
    "Gcs.mdd_consistent"
   ],
   "note": "All-different: for each call of the matching propagator, whatever matching earlier calls left. Table: for each call, when no two columns are views of the same variable. Element: for each call, when no variable occurs twice. Plus, Minus, Multiply and linear equalities that are tabulated: for each call of the propagator of the table."
  },
  {
   "property": "C50",
   "status": "partial",
   "theorems": [
    "Gcs.regular_right",
    "Gcs.regularMaps_right",
    "Gcs.regularRows_right",
    "Gcs.regular_posts",
    "Gcs.mdd_right_partial",
    "Gcs.mdd_throws",
    "Gcs.mdd_empty_wrong",
    "Gcs.stored_fresh",
    "Gcs.stored_left",
    "Gcs.regular_consistent",
    "Gcs.mdd_consistent"
   ],
   "note": "Proved for Regular with non-deterministic automata, maps and matrices, and for MDD with at least one variable; both generalised arc consistent. An MDD for no variables never fails, even if its root does not accept: mdd_empty_wrong. Regular expressions, and the other two proof strategies of Regular, are not modelled."
  },
  {
   "property": "C51",
   "status": "partial",
   "theorems": [
    "Gcs.globalCardinality_right_partial",
    "Gcs.globalCardinality_short",
    "Gcs.globalCardinality_twice_wrong",
    "Gcs.globalCardinality_gac_right_partial",
    "Gcs.globalCardinality_gac_unsorted_wrong",
    "Gcs.globalCardinality_gac_twice_wrong"
   ],
   "note": "Proved at both levels for cover values that are different, open and closed; at the GAC level, if open, only for cover values in increasing order. False of the code if a cover value occurs twice (globalCardinality_twice_wrong, globalCardinality_gac_twice_wrong), and at the GAC level if the values are not in order and the constraint is open (globalCardinality_gac_unsorted_wrong)."
  },
  {
   "property": "C52",
   "status": "partial",
   "theorems": [
    "Gcs.circuit_prevent_right_partial",
    "Gcs.circuit_scc_right_partial",
    "Gcs.circuit_scc_empty",
    "Gcs.Circuit.circuit_scc_hangs"
   ],
   "note": "Proved for circuit::Prevent, but for the same constant given twice. For circuit::SCC, the default, no solution is lost and what is found is a tour, if propagation ends; it may not end (circuit_scc_hangs, for every number of rounds), and with no nodes it is undefined behaviour (circuit_scc_empty)."
  },
  {
   "property": "C53",
   "status": "proved",
   "theorems": [
    "Gcs.disjunctive2D_right",
    "Gcs.disjunctive2D_refuses"
   ],
   "note": "Both modes, with variable sizes, whatever is repeated. Without proof logging."
  },
  {
   "property": "C54",
   "status": "proved",
   "theorems": [
    "Gcs.minDistance_right",
    "Gcs.minDistance_refuses"
   ],
   "note": "All five levels, with or without requirements, whatever is repeated. Without proof logging."
  },
  {
   "property": "C55",
   "status": "partial",
   "theorems": [
    "Gcs.knapsack_right_partial",
    "Gcs.knapsack_refuses",
    "Gcs.knapsack_short_wrong"
   ],
   "note": "Both strategies, whatever is repeated, if rows have as many coefficients as there are variables, or more. With the default strategy shorter rows are accepted, and propagation goes beyond their end (knapsack_short_wrong). Without proof logging."
  },
  {
   "property": "C56",
   "status": "proved",
   "theorems": [
    "Gcs.sort_right",
    "Gcs.sort_refuses"
   ],
   "note": "Whatever is repeated. The exceptions of the propagator are never thrown: a Hall interval explaining each removal always exists. Without proof logging."
  },
  {
   "property": "C57",
   "status": "partial",
   "theorems": [
    "Gcs.argSort_right_partial",
    "Gcs.argSort_means",
    "Gcs.argSort_refuses",
    "Gcs.argSort_unique",
    "Gcs.ArgSort.argSort_extreme_wrong"
   ],
   "note": "For elements strictly between the least and the greatest 64-bit integer; argSort_extreme_wrong shows that for the others one is added to a bound with no check (undefined behaviour). With the variables for the sorted values that it allocates: argSort_means shows that they exist exactly if the permutation is the stable one. Without proof logging."
  },
  {
   "property": "C58",
   "status": "partial",
   "theorems": [
    "Gcs.smartTable_right_partial",
    "Gcs.smartTable_refuses",
    "Gcs.lexSmartTable_right_partial",
    "Gcs.atMostOneSmartTable_right_partial",
    "Gcs.SmartTable.Wrong.smartTable_cycle_wrong",
    "Gcs.SmartTable.Wrong.smartTable_view_accepts_wrong",
    "Gcs.SmartTable.Wrong.smartTable_view_rejects_wrong",
    "Gcs.SmartTable.Wrong.smartTable_repeated_wrong",
    "Gcs.SmartTable.Wrong.smartTable_const_throws",
    "Gcs.SmartTable.Wrong.smartTable_missing_throws",
    "Gcs.SmartTable.Wrong.lexSmartTable_longer_wrong"
   ],
   "note": "For entries about variables that are in the list once, not views or constants, with comparisons in a row that close no cycle, and whatever the order in which an unordered_map has the variables of a row. The other theorems show, by runs of the solver, that all these are needed: solutions are lost, or found that are none, or propagation throws. Without proof logging."
  },
  {
   "property": "C59",
   "status": "partial",
   "theorems": [
    "Gcs.binPacking_loads_right_partial",
    "Gcs.binPacking_capacities_right_partial",
    "Gcs.binPacking_refuses",
    "Gcs.binPacking_total_ub",
    "Gcs.binPacking_sweep_idle",
    "Gcs.BinPacking.Demo.binPacking_strategies_differ"
   ],
   "note": "Solutions are right for both forms and all modes; posting has undefined behaviour if the sum of sizes is not a 64-bit integer (default consistency). Consistency for each bin, which is documented for the default, does not hold: its sweep never prunes anything (binPacking_sweep_idle), and the other strategy prunes more. Without proof logging."
  },
  {
   "property": "C60",
   "status": "partial",
   "theorems": [
    "Gcs.regex_language",
    "Gcs.regex_unambiguous",
    "Gcs.regex_total_partial",
    "Gcs.regex_wellFormed",
    "Gcs.regex_reference",
    "Gcs.regularRegex_right",
    "Gcs.regularRegex_posts_partial",
    "Gcs.regularRegex_consistent",
    "Gcs.regex_large",
    "Gcs.regex_largest"
   ],
   "note": "The automaton, the reference matcher and Regular are right whenever they do not throw. That every expression is accepted and every other text rejected is proved for numbers below 2^63 - 1; regex_large and regex_largest show that larger ones are undefined behaviour when read, and that the largest one throws in a range or a domain."
  },
  {
   "property": "C61",
   "status": "partial",
   "theorems": [
    "Gcs.cumulative_right_partial",
    "Gcs.cumulative_refuses",
    "Gcs.Cumulative.Demo.needs_timeTable"
   ],
   "note": "Time tables, the overload check and its use of the profile (what is on by default), with variable lengths, heights, capacity and presences. The rules that are off by default are not modelled. needs_timeTable: with the documented switch time_table = false, assignments that break the constraint are reported as solutions."
  },
  {
   "property": "C62",
   "status": "partial",
   "theorems": [
    "Gcs.disjunctive_right_partial",
    "Gcs.disjunctive_refuses"
   ],
   "note": "Time tables and detectable precedences (what is on by default), on or off, strict or not, with variable lengths and presences. The rules that are off by default are not modelled."
  },
  {
   "property": "C63",
   "status": "partial",
   "theorems": [
    "Gcs.regularStrategy_right_partial",
    "Gcs.regularStrategy_refuses",
    "Gcs.regularBacchus_consistent",
    "Gcs.regularStrategy_empty_wrong"
   ],
   "note": "All strategies allow exactly the words that are accepted, and achieve GAC, if there are variables or the first state is final. Otherwise the property is false of the code: regularStrategy_empty_wrong shows that with the Bacchus strategy, non-solutions are reported that the others do not report."
  },
  {
   "property": "C64",
   "status": "partial",
   "theorems": [
    "Gcs.autoTable_tuples",
    "Gcs.autoTable_fails",
    "Gcs.autoTable_enumerates_partial",
    "Gcs.autoTable_item",
    "Gcs.autoTable_implied"
   ],
   "note": "The presolver after the initialisers of any problem: all tuples are found, the state is restored, failure means there are no solutions, the table is implied and its propagator is right. The search afterwards is shown to be right from the state that is left, but without the propagator that was added and its variable."
  },
  {
   "property": "C65",
   "status": "proved",
   "theorems": [
    "Gcs.degree_counts",
    "Gcs.disabled_exactly",
    "Gcs.constraint_indices",
    "Gcs.constraints_of_variable",
    "Gcs.scope_of_constraint",
    "Gcs.scope_of_propagator"
   ],
   "note": "For any sequence of installing propagators and disabling constraints."
  },
  {
   "property": "C66",
   "status": "partial",
   "theorems": [
    "Gcs.weights_read",
    "Gcs.merge_entries",
    "Gcs.combine_is",
    "Gcs.classic_degree",
    "Gcs.constant_degree",
    "Gcs.history_degree",
    "Gcs.history_bounds",
    "Gcs.refined_degree",
    "Gcs.classic_carried",
    "Gcs.history_carried",
    "Gcs.refined_carried",
    "Gcs.root_degree_partial",
    "Gcs.Weighting.Demo.root_degree_differs"
   ],
   "note": "For any conflicts and restarts, over rational numbers instead of doubles. The documented equality of degree and weighted degree at the root is false in general (root_degree_differs) and proved under hypotheses (root_degree_partial)."
  },
  {
   "property": "C67",
   "status": "partial",
   "theorems": [
    "Gcs.difference_right_partial",
    "Gcs.difference_refuses",
    "Gcs.difference_consistent"
   ],
   "note": "For any edges, with views, constants, conditions and repetitions. Only with simplifying_at_root(false), what is simplified at the root being C69, and incrementally(false)."
  },
  {
   "property": "C68",
   "status": "proved",
   "theorems": [
    "Gcs.simplify_right"
   ],
   "note": "For any graph and roles. About the function that decides what to simplify."
  },
  {
   "property": "C69",
   "status": "partial",
   "theorems": [
    "Gcs.difference_root_partial"
   ],
   "note": "For any edges, and any state of the search afterwards. The propagator is the one that propagates from scratch (incrementally(false)); and the graph that the initialiser leaves for the propagator is what it returns, so this is about the two of them rather than about a run of the solver."
  },
  {
   "property": "C70",
   "status": "proved",
   "theorems": [
    "Gcs.interval_tree_right"
   ],
   "note": "For any insertions and any priorities, so whatever the random number generator returns."
  },
  {
   "property": "C71",
   "status": "proved",
   "theorems": [
    "Gcs.range_literals_right",
    "Gcs.range_links_immediate"
   ],
   "note": "One variable with bits, without views, while a proof is being logged. That each clause follows by reverse unit propagation is C72."
  },
  {
   "property": "C72",
   "status": "proved",
   "theorems": [
    "Gcs.order_literals_right"
   ],
   "note": "One variable with bits, without views, whose bounds can be derived, with the ordinary encoding. That the lines of the chain themselves follow from the bits is not shown, only that they are true."
  },
  {
   "property": "C73",
   "status": "proved",
   "theorems": [
    "Gcs.makespan_bound_holds",
    "Gcs.makespan_bound_wider",
    "Gcs.makespan_bound_right",
    "Gcs.makespan_bound_strongest",
    "Gcs.window_energy_right",
    "Gcs.window_energy_not_least",
    "Gcs.time_slots_right",
    "Gcs.makespan_links_right"
   ],
   "note": "The rows that link starts to the makespan, and the search for the bound, without overflow and without the lines of the proof. The comment that a task's energy is its least overlap with the window is false in general (window_energy_not_least), and true as used for makespans."
  }
 ]
}