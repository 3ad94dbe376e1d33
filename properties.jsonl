{"id": "C01", "title": "Checked integers are exact or throw", "statement": "For Integer operands a, b, each of a+b, a-b, a*b, a/b, a%b, -a, abs(a), ++a, --a either yields the mathematically exact result (with division truncating towards zero and a == (a/b)*b + a%b), or throws IntegerOverflow; it throws exactly when the exact result does not fit in long long or the divisor is zero (and, for %, also in the MIN % -1 case). It never wraps.", "quantifier": "all pairs of 64-bit values and all operators", "why_tests_cant": "2^128 operand pairs; boundary behaviour differs per operator.", "anchors": ["gcs/integer.hh: Integer, operator+,-,*,/,%,abs,++,--", "gcs/innards/integer_overflow.hh"]}
{"id": "C02", "title": "Portable overflow detection agrees with exact arithmetic and is itself free of undefined behaviour", "statement": "The branch-based add_overflows/sub_overflows/mul_overflows used where no compiler builtin exists return true exactly when the exact sum/difference/product is out of range, store the exact result otherwise, and every intermediate expression they evaluate is in range with a nonzero divisor.", "quantifier": "all pairs of values of any two's-complement width", "why_tests_cant": "the operand space is 2^128 and the fallback is never compiled on the tested platforms.", "anchors": ["gcs/innards/integer_overflow.hh: add_overflows, sub_overflows, mul_overflows"]}
{"id": "C03", "title": "Checked integer power is exact", "statement": "checked_integer_power(b, e) returns b^e exactly for e >= 0 when it fits in long long and nullopt exactly when it does not fit; for e < 0 it returns the truncated value of 1/b^|e|, and nullopt only for b = 0. power2(i) is 2^i for 0 <= i <= 62 and throws otherwise.", "quantifier": "all 64-bit bases and exponents", "why_tests_cant": "unbounded loop over a 2^128 operand space; an intermediate square could overflow although the result fits.", "anchors": ["gcs/innards/power.cc: checked_integer_power, power2"]}
{"id": "C04", "title": "IntervalSet mutators compute set operations and keep the canonical form", "statement": "erase, erase_range, erase_less_than, erase_greater_than, intersect_with, clear and (for values above upper()) insert_at_end leave the set containing exactly the values set algebra prescribes, keep intervals sorted, non-empty, disjoint and non-touching, and compute only endpoints that are already in the integer range (so cannot overflow).", "quantifier": "all interval sets with any number of intervals and all arguments", "why_tests_cant": "unbounded number of intervals and positions of the argument relative to them.", "anchors": ["gcs/interval_set.hh: erase, erase_range, erase_less_than, erase_greater_than, intersect_with, insert_at_end, clear"]}
{"id": "C05", "title": "IntervalSet queries agree with set membership", "statement": "contains, contains_any_of, empty, lower, upper, has_holes and size answer membership, intersection, emptiness, minimum, maximum, existence of an absent value strictly between the bounds, and cardinality of the set of values held.", "quantifier": "all canonical interval sets, all query values, all pairs of sets", "why_tests_cant": "unbounded number of intervals; the merge walk skips on comparisons that tests sample only sparsely.", "anchors": ["gcs/interval_set.hh: contains, contains_any_of, empty, lower, upper, has_holes, size"]}
{"id": "C06", "title": "IntervalSet iteration visits exactly the right values in order, once", "statement": "each/for_each yield every member in ascending order exactly once, each_reversed in descending order, each_gap exactly the absent values strictly between the bounds, each_gap_interval the maximal half-open gaps, each_interval_minus the maximal intervals of the set difference; early stopping in for_each visits a prefix.", "quantifier": "all canonical interval sets (and pairs of sets)", "why_tests_cant": "unbounded sets; correct advance of two cursors depends on the full interleaving of intervals.", "anchors": ["gcs/interval_set.hh: each, for_each, each_reversed, each_gap, each_gap_interval, each_interval_minus"]}
{"id": "C07", "title": "Values at the edge of the integer range are handled, not lost", "statement": "Iterating a set whose largest member is Integer::max_value() (or, reversed, whose smallest is min_value()), or taking a set difference against such a set, completes normally.", "quantifier": "all canonical interval sets over the full 64-bit range", "why_tests_cant": "an exhaustive run over a set reaching the limit is only one input among 2^64, and ordinary tests keep domains small.", "anchors": ["gcs/interval_set.hh: each, each_reversed, each_interval_minus", "gcs/integer.hh: operator++"]}
{"id": "C08", "title": "View arithmetic means what it says", "statement": "For every assignment of the problem variables, v + o, v - o and -v denote the value of v plus, minus, negated, for simple variables, constants and views alike (including views of views, which are flattened), or the construction throws IntegerOverflow.", "quantifier": "all variable ids, offsets and assignments", "why_tests_cant": "arbitrary nesting of offsets and negations.", "anchors": ["gcs/variable_id.cc: operator+, operator-", "gcs/variable_id.hh"]}
{"id": "C09", "title": "Negating a condition or literal is exact complement", "statement": "For every assignment, !c holds exactly when c does not, for all six condition operators and constant literals; !!c is c; v <= n and v > n mean the usual thing although stored as < and >=; in_range/not_in_range with lo == hi behave as ==/!=.", "quantifier": "all conditions, literals and assignments", "why_tests_cant": "integers are unbounded; several operators are encoded through others with an off-by-one.", "anchors": ["gcs/variable_condition.hh", "gcs/innards/literal.cc: operator!"]}
{"id": "C10", "title": "Literal constant folding is sound", "statement": "If a literal is reported as literally true (false) then it holds (fails) in every assignment; a condition on a constant variable is always decided, and decided correctly.", "quantifier": "all literals and assignments", "why_tests_cant": "constants, operators and range bounds are unbounded.", "anchors": ["gcs/innards/literal.cc: is_literally_true, is_literally_false, is_literally_true_or_false"]}
{"id": "C11", "title": "Inferring a literal removes exactly the values it excludes", "statement": "State::infer(lit) returning anything but Contradiction leaves the variable's domain equal to its previous domain intersected with the values satisfying lit, through any view, and leaves every other variable untouched; it returns Contradiction exactly when that intersection is empty.", "quantifier": "all states, variables (plain, view, constant), literals", "why_tests_cant": "domains with arbitrarily many holes; six operators times three kinds of variable, with off-by-one adjustment under negation.", "anchors": ["gcs/innards/state.cc: infer, infer_equal, infer_not_equal, infer_less_than, infer_greater_than_or_equal, infer_in_range, infer_not_in_range, change_state_for_*"]}
{"id": "C12", "title": "The reported kind of change is exact", "statement": "infer returns NoChange iff the domain is unchanged, Instantiated iff it changed and now has one value, BoundsChanged iff it changed, is not a singleton and a bound moved, InteriorValuesChanged iff it changed and both bounds stayed put. (Propagators subscribed to bounds or instantiation rely on this.)", "quantifier": "all states and literals", "why_tests_cant": "depends on every shape of domain; a misclassification only shows as a silently missed wake.", "anchors": ["gcs/innards/state.cc: change_state_for_*", "gcs/innards/inference-fwd.hh: Inference"]}
{"id": "C13", "title": "State queries see the mathematical image of the domain through views", "statement": "lower_bound, upper_bound, bounds, in_domain, has_single_value, optional_single_value, domain_size, domain_has_holes, copy_of_values, domain_intersects_with, domains_intersect and operator() return what they would on the set { view(v) : v in domain }.", "quantifier": "all states, all views", "why_tests_cant": "arbitrary domains with holes, negation reverses interval order.", "anchors": ["gcs/innards/state.cc", "gcs/current_state.cc"]}
{"id": "C14", "title": "Enumerating a variable's values", "statement": "each_value yields each value of the (viewed) variable's domain exactly once, as of the time of the call even if the domain is modified during iteration; documented order is ascending.", "quantifier": "all states and views", "why_tests_cant": "unbounded domains, and the order depends on the sign of the view.", "anchors": ["gcs/innards/state.cc: each_value_immutable, each_value_mutable", "gcs/innards/state.hh: for_each_value_immutable", "gcs/current_state.cc: each_value"]}
{"id": "C15", "title": "Testing a literal is sound and complete with respect to the domain", "statement": "test_literal returns DefinitelyTrue iff every value in the domain satisfies the literal, DefinitelyFalse iff none does, Undecided otherwise; and is consistent with infer (DefinitelyTrue iff infer would return NoChange, DefinitelyFalse iff Contradiction).", "quantifier": "all states with non-empty domains, all literals", "why_tests_cant": "unbounded domains with holes.", "anchors": ["gcs/innards/state.cc: test_literal"]}
{"id": "C16", "title": "Backtracking restores the past exactly", "statement": "After t = new_epoch() followed by any sequence of inferences, guesses, nested epochs and nested backtracks, backtrack(t) restores every domain, every constraint state and the list of guesses to their values at the call to new_epoch, and runs every on_backtrack callback registered since exactly once.", "quantifier": "all histories of State operations", "why_tests_cant": "histories are unbounded and arbitrarily nested.", "anchors": ["gcs/innards/state.cc: new_epoch, backtrack, on_backtrack, guess, add_constraint_state, get_constraint_state"]}
{"id": "C17", "title": "Domains only shrink and never become silently empty", "statement": "Along any history of successful inferences every domain stays a non-empty subset of what it was, in canonical form; guess either records the literal or throws.", "quantifier": "all histories", "why_tests_cant": "unbounded histories.", "anchors": ["gcs/innards/state.cc: infer, guess"]}
{"id": "C18", "title": "Every relevant propagator is woken", "statement": "When an inference changes a variable, every enabled propagator subscribed to that kind of change on the variable (change, bounds, instantiation, as implied by the reported Inference) is queued, and no propagator is queued for an event it did not subscribe to.", "quantifier": "all trigger tables, all inferences, all queue states", "why_tests_cant": "the set of subscribers and queue contents is arbitrary.", "anchors": ["gcs/innards/propagators.cc: requeue, trigger_on_change, trigger_on_bounds, trigger_on_instantiated"]}
{"id": "C19", "title": "The propagation queue never loses, duplicates or resurrects a propagator", "statement": "The queue is at all times a permutation of the propagators partitioned into queued, idle and disabled; a queued propagator is queued once; a disabled propagator is never queued or run until backtracking past the point where it was disabled, and then it is enabled again.", "quantifier": "all sequences of enqueue, dequeue, disable and backtrack", "why_tests_cant": "unbounded sequences on an unbounded number of propagators with in-place swaps.", "anchors": ["gcs/innards/propagators.cc: propagate, requeue", "gcs/innards/propagators.cc: disable_propagators_for_constraints"]}
{"id": "C20", "title": "Propagation never removes a solution", "statement": "If every propagator only makes inferences implied by its constraint, then propagate returns true only after removing no solution of the constraints, and returns false (contradiction) only when the current domains contain no solution.", "quantifier": "all constraint sets, states and wake orders", "why_tests_cant": "all schedules of arbitrarily many propagators.", "anchors": ["gcs/innards/propagators.cc: propagate, initialise", "gcs/innards/inference_tracker.hh"]}
{"id": "C21", "title": "Propagation reaches a fixed point", "statement": "When propagate returns without contradiction and was not aborted, the queue is empty and, for every enabled propagator, since the last change it subscribes to it has started a run, or finished a run in which it claimed idempotence (and the claim is honoured).", "quantifier": "all trigger tables, propagators, states", "why_tests_cant": "depends on all interleavings of wakes and claims of idempotence.", "anchors": ["gcs/innards/propagators.cc: propagate"]}
{"id": "C22", "title": "Propagation terminates", "statement": "propagate returns after finitely many propagator calls, whatever the propagators do, as long as each inference is through the tracker on finite domains.", "quantifier": "all propagator behaviours and states", "why_tests_cant": "no bound on number of calls known in advance.", "anchors": ["gcs/innards/propagators.cc: propagate"]}
{"id": "C23", "title": "Literal watches fire when their literal becomes entailed and are restored on backtracking", "statement": "A refined watch armed on a literal that becomes true because of an inference made during propagate wakes its propagator with its payload during that propagate; and backtracking re-arms every watch consumed, and disarms every watch armed, since the epoch.", "quantifier": "all watch sets, inferences, rounds, histories", "why_tests_cant": "interleavings of watches, rounds and idempotence claims.", "anchors": ["gcs/innards/propagators.cc: requeue, requeue_unless_already_seen, RefinedWatchContext"]}
{"id": "C24", "title": "Nogoods are enforced by two-watched-literal propagation", "statement": "A nogood (forbidden conjunction of literals) is never violated at a propagation fixed point, its unit consequences are inferred, and watching never makes an unsound inference.", "quantifier": "all nogoods, states and histories of watches", "why_tests_cant": "depends on all histories of watch moves, including across backtracking.", "anchors": ["gcs/constraints/nogoods/nogoods.cc: install_refined_nogoods, install_scan_nogoods, init_watches_for", "gcs/constraints/table/negative_table.cc"]}
{"id": "C25", "title": "Every reported solution satisfies every constraint", "statement": "Whenever the solution callback is called and every variable has a single value, the assignment satisfies every posted constraint and every variable's initial domain.", "quantifier": "all problems, heuristics, restarts, objectives and callbacks", "why_tests_cant": "all search trees.", "anchors": ["gcs/solve.cc: solve_with_state, solve_with"]}
{"id": "C26", "title": "Enumeration finds every solution exactly once", "statement": "When enumerating without restarts and with a branching heuristic that covers all variables, a solve that runs to completion reports each solution of the problem exactly once.", "quantifier": "all problems, heuristics and propagators", "why_tests_cant": "all search trees.", "anchors": ["gcs/solve.cc: solve_with_state"]}
{"id": "C27", "title": "Restarts and learned nogoods lose and repeat nothing", "statement": "With restarts, the nogoods recorded when a pass is abandoned exclude exactly parts of the tree already explored: no unreported solution is excluded, and no solution is reported twice.", "quantifier": "all restart schedules, heuristics (which may change between passes), problems", "why_tests_cant": "all cut-off points and search trees.", "anchors": ["gcs/solve.cc: solve_with_state, solve_with", "gcs/restarts.cc"]}
{"id": "C28", "title": "Optimisation reports strictly improving solutions and proves optimality", "statement": "When minimising (or maximising), each reported solution has a strictly better objective than the previous one, and if the search runs to completion the last one is optimal; if none was reported, there is no solution.", "quantifier": "all problems, heuristics, restart schedules", "why_tests_cant": "all search trees and orders of improving solutions.", "anchors": ["gcs/solve.cc: solve_with_state, solve_with", "gcs/problem.cc: minimise, maximise"]}
{"id": "C29", "title": "completed is reported exactly for exhaustive searches", "statement": "The completed callback is called if and only if the search was not cut short by a callback returning false or by the abort flag; a search that is cut short reports a prefix of what it would have reported.", "quantifier": "all callbacks and abort schedules", "why_tests_cant": "all interruption points.", "anchors": ["gcs/solve.cc: solve_with"]}
{"id": "C30", "title": "Search leaves the state as it found it", "statement": "A call of the recursive search, whatever its outcome, restores domains, guesses and constraint states to those at entry (after root-level propagation).", "quantifier": "all trees and outcomes", "why_tests_cant": "all search trees and exits.", "anchors": ["gcs/solve.cc: solve_with_state"]}
{"id": "C31", "title": "Statistics count what happened", "statement": "recursions, solutions, max_depth and restarts in Stats equal the number of nodes entered, the number of calls of the solution callback, the greatest depth reached and one less than the number of passes; failures is the number of nodes other than roots below which that pass found no solution.", "quantifier": "all searches", "why_tests_cant": "all search trees.", "anchors": ["gcs/solve.cc", "gcs/stats.hh"]}
{"id": "C32", "title": "The Luby sequence and restart cut-offs", "statement": "The cutoff used for restart i is scale times the i-th term of the Luby sequence (1,1,2,1,1,2,4,...), is always at least scale, and is unbounded as i grows, so every finite tree is eventually explored within one pass.", "quantifier": "all restart indices and scales", "why_tests_cant": "infinite sequence.", "anchors": ["gcs/restarts.cc: luby_term, current_cutoff, advance"]}
{"id": "C33", "title": "Value-ordering heuristics partition the domain", "statement": "For a variable with at least two values, the branches offered by each value_order heuristic cover every value of the domain, are pairwise disjoint, are each consistent with the domain, and each strictly reduces it; the documented order is followed.", "quantifier": "all domains, variables and random choices", "why_tests_cant": "unbounded domains, every random draw.", "anchors": ["gcs/search_heuristics.cc: value_order::*"]}
{"id": "C34", "title": "Variable-ordering heuristics select exactly unassigned variables", "statement": "Each variable_order heuristic returns a variable from its list with at least two values, returns none iff every variable in its list is assigned, and the one returned is optimal for the documented criterion, first in the list among ties.", "quantifier": "all variable lists, states and random choices", "why_tests_cant": "unbounded lists and states.", "anchors": ["gcs/search_heuristics.cc: variable_order::*"]}
{"id": "C35", "title": "branch_sequence composes heuristics", "statement": "branch_sequence(a, b) offers a's branches when a offers any, and b's otherwise; so a leaf is reported only when both have nothing left to branch on.", "quantifier": "all heuristics and states", "why_tests_cant": "arbitrary callbacks.", "anchors": ["gcs/search_heuristics.cc: branch_sequence, branch_with"]}
{"id": "C36", "title": "Comparison constraints propagate soundly and check assignments", "statement": "LessThan, LessThanEqual, GreaterThan, GreaterThanEqual and their reified forms make only implied inferences and reject every fully assigned violating state.", "quantifier": "all variables, views, constants, domains, reification conditions", "why_tests_cant": "unbounded domains.", "anchors": ["gcs/constraints/comparison/comparison.cc"]}
{"id": "C37", "title": "Equality constraints propagate soundly and check assignments", "statement": "Equals, NotEquals and reified forms make only implied inferences, achieve equal domains at fixpoint for Equals, and reject every violating assignment.", "quantifier": "all variables, views, constants, domains", "why_tests_cant": "unbounded domains.", "anchors": ["gcs/constraints/equals/equals.cc"]}
{"id": "C38", "title": "Linear inequalities and equalities propagate soundly and check assignments", "statement": "Bounds propagation for sums c1*x1+...+cn*xn <= b (and =, >=, !=) makes only implied inferences, reaches bounds consistency for <= in one call, rejects every violating assignment, and the normalisation (merging repeated variables, views and constants) preserves the meaning.", "quantifier": "all coefficient vectors, domains and right-hand sides", "why_tests_cant": "arbitrary number of terms and coefficients.", "anchors": ["gcs/constraints/linear/propagate.cc", "gcs/constraints/linear/utils.cc", "gcs/constraints/linear/linear_equality.cc", "gcs/constraints/linear/linear_inequality.cc"]}
{"id": "C39", "title": "All-different propagates soundly and checks assignments", "statement": "The value-consistency and GAC propagators of AllDifferent remove only values in no solution; a fully assigned state with a repeated value is rejected.", "quantifier": "all lists of variables and domains", "why_tests_cant": "arbitrary number of variables and domains.", "anchors": ["gcs/constraints/all_different/vc_all_different.cc", "gcs/constraints/all_different/gac_all_different.cc"]}
{"id": "C40", "title": "Arithmetic and element constraints propagate soundly and check assignments", "statement": "Abs, Plus, Minus, Multiply, Divide, Modulus, Power, Element, ArrayMin, ArrayMax only make implied inferences and reject violating assignments.", "quantifier": "all variables and domains", "why_tests_cant": "unbounded integers and sign combinations.", "anchors": ["gcs/constraints/abs/abs.cc", "gcs/constraints/plus_minus/plus.cc", "gcs/constraints/min_max/min_max.cc", "gcs/constraints/element/element.cc", "gcs/constraints/innards/product_bounds.hh", "gcs/constraints/divide_modulus/divide_modulus.cc"]}
{"id": "C41", "title": "Counting, logical and set-membership constraints propagate soundly and check assignments", "statement": "And, Or, ParityOdd, Count, Among, In, NValue, AtMostOne, AllEqual, Increasing, Inverse, Lex, ValuePrecede only make implied inferences and reject violating assignments.", "quantifier": "all variables and domains", "why_tests_cant": "arbitrary arity and domains.", "anchors": ["gcs/constraints/logical/logical.cc", "gcs/constraints/count/count.cc", "gcs/constraints/among/among.cc", "gcs/constraints/in/in.cc", "gcs/constraints/n_value/n_value.cc", "gcs/constraints/increasing/increasing.cc"]}
{"id": "C42", "title": "Table constraints propagate soundly and check assignments", "statement": "Table and NegativeTable, with wildcards, keep exactly assignments (not) matching a tuple; selector-based propagation achieves generalised arc consistency.", "quantifier": "all tables, arities and domains", "why_tests_cant": "arbitrary tables.", "anchors": ["gcs/constraints/extensional_utils.cc", "gcs/constraints/table/table.cc", "gcs/constraints/table/negative_table.cc"]}
{"id": "C43", "title": "Bit encodings in proofs represent exactly the variable's range", "statement": "The binary encoding chosen for a variable with bounds [l, u] can represent every value in [l, u], and the greater-or-equal and equality flag definitions written to the proof mean v >= k and v = k for every bit assignment satisfying the bounds.", "quantifier": "all bounds (including negative) and all bit assignments", "why_tests_cant": "exponential in bit width.", "anchors": ["gcs/innards/proofs/bits_encoding.cc", "gcs/innards/proofs/names_and_ids_tracker.cc", "gcs/innards/proofs/proof_model.cc"]}
{"id": "C44", "title": "Pseudo-Boolean rendering of sums preserves meaning", "statement": "The OPB inequality written for a weighted sum over variables, flags and literals (with half-reification) holds of a 0/1 assignment exactly when the sum inequality (or its reified form) does under the decoded values.", "quantifier": "all sums, bounds, literals, 0/1 assignments", "why_tests_cant": "exponential assignments, arbitrary sums.", "anchors": ["gcs/innards/proofs/emit_inequality_to.cc", "gcs/innards/proofs/simplify_literal.cc", "gcs/innards/proofs/proof_model.cc"]}
{"id": "C45", "title": "S-expressions survive a round trip", "statement": "Printing an s-expression whose atoms are tokens (not empty, no white space, no parentheses) and parsing it back yields the same expression, and the parser rejects malformed input rather than reading a different expression.", "quantifier": "all s-expressions and all strings", "why_tests_cant": "unbounded nesting and text.", "anchors": ["gcs/innards/s_expr.cc"]}
{"id": "C46", "title": "Names are validated and unique", "statement": "Problem accepts a name iff it matches the documented syntax with balanced, properly nested brackets and has not been used before; distinct variables therefore never share a name, nor do distinct constraints, nor a variable and a constraint named by the user, and anonymous names never collide with user names.", "quantifier": "all sequences of names", "why_tests_cant": "infinite strings and histories.", "anchors": ["gcs/problem.cc: check_name, create_integer_variable, post, post_named, post_autonumbered"]}
{"id": "C47", "title": "Constraint reification dispatch", "statement": "A reified constraint enforces its constraint when the condition is true, its negation when false (for iff), decides the condition when the constraint is entailed or violated, and does nothing otherwise; so that under any full assignment the reified semantics hold.", "quantifier": "all reification kinds, conditions and inner constraints", "why_tests_cant": "arbitrary inner constraints and states.", "anchors": ["gcs/constraints/innards/reified_dispatcher.hh", "gcs/constraints/innards/reified_state.cc", "gcs/reification.hh"]}
{"id": "C48", "title": "Start-up inference loses no solution", "statement": "If solving stops before any search because a constraint's start-up inference already fails, then no assignment within the variables' domains satisfies all posted constraints; otherwise the domains the search starts from still contain every assignment that does.", "quantifier": "all problems and all orders of posting", "why_tests_cant": "arbitrary constraints, domains, and interactions between initialisers.", "anchors": ["gcs/innards/propagators.cc", "gcs/problem.cc", "gcs/solve.cc"]}
{"id": "C49", "title": "Generalised arc consistency leaves exactly the supported values", "statement": "After the GAC propagator of AllDifferent or AllDifferentExcept has run on variables that are not views of one another, every value left in a domain is part of an assignment within the domains that satisfies the constraint, and the propagator fails exactly when there is none.", "quantifier": "all lists of variables, domains, excluded values, and all matchings kept from earlier calls", "why_tests_cant": "the matching depends on the whole history of calls, and supports range over exponentially many assignments.", "anchors": ["gcs/constraints/all_different/gac_all_different.cc"]}
{"id": "C50", "title": "Regular and MDD accept exactly the words of their automaton", "statement": "Posting Regular on a sequence of variables (given by an automaton with sets of targets, maps, or a matrix) or MDD restricts it to exactly the sequences of values for which some path of the automaton from state 0 ends in an accepting state, including the empty sequence; the propagator leaves only values that are part of such a sequence within the domains, whatever earlier calls and backtracking have left in its incremental graph.", "quantifier": "all automata and decision diagrams, deterministic or not, all sequences of variables, views, domains and histories of calls", "why_tests_cant": "the graph is updated decrementally by every call and restored by backtracking; paths range over exponentially many words.", "anchors": ["gcs/constraints/regular/regular.cc", "gcs/constraints/mdd/mdd.cc"]}
{"id": "C51", "title": "Global cardinality counts what it says", "statement": "Posting GlobalCardinality at any consistency level restricts the solutions to exactly those assignments in which, for each i, the number of variables equal to values[i] is counts[i], and, if closed, every variable takes one of the values; values may be given in any order.", "quantifier": "all lists of variables, values and counts, views, repeated variables, domains, both levels and open and closed", "why_tests_cant": "subsets of the cover and assignments of variables to values are exponentially many, and the propagators' shortcuts depend on sorting and on domains that change while they run.", "anchors": ["gcs/constraints/global_cardinality/global_cardinality.cc", "gcs/constraints/global_cardinality/bounds_global_cardinality.cc", "gcs/constraints/global_cardinality/gac_global_cardinality.cc"]}
{"id": "C52", "title": "Circuit allows exactly the tours", "statement": "Posting Circuit on successors s[0..n-1], with either algorithm and any options, restricts the solutions to exactly those assignments in which following successors from any node leads to every node; propagation ends, and does nothing undefined.", "quantifier": "all numbers of nodes, lists of variables, views and constants, domains, both algorithms, all options, and all histories of calls and backtracking", "why_tests_cant": "graphs of possible successors are exponentially many, and the chains kept between calls depend on the order in which successors are fixed.", "anchors": ["gcs/constraints/circuit/circuit.cc", "gcs/constraints/circuit/circuit_base.cc", "gcs/constraints/circuit/circuit_scc.cc", "gcs/constraints/circuit/circuit_prevent.cc"]}
{"id": "C53", "title": "Disjunctive2D allows exactly the placements without overlap", "statement": "Posting Disjunctive2D on corners and sizes that may be constants or variables restricts the solutions to exactly those assignments in which of every two rectangles one is left of or below the other; unless strict, rectangles without area do not count. Posting is refused exactly if the vectors differ in size or a size may be negative.", "quantifier": "all numbers of rectangles, repeated variables, views and constants, domains, and histories of calls", "why_tests_cant": "mandatory parts and pushes depend on all bounds, which change while the pairs are gone through.", "anchors": ["gcs/constraints/disjunctive_2d/disjunctive_2d.cc"]}
{"id": "C54", "title": "MinDistance allows exactly the choices whose smallest distance is z", "statement": "Posting MinDistance on points x[0..p-1], z, a matrix D and optional requirements, at any of the five levels of propagation, restricts the solutions to exactly those assignments in which every point is a site of the matrix, z is the smallest D[x_i][x_j] over i < j, and each D[x_i][x_j] is at least its requirement; the level never changes the solutions. Posting is refused exactly if there are fewer than two points or a matrix is not as documented.", "quantifier": "all numbers of points and sites, matrices, requirements, repeated variables, views and constants, domains, levels, and histories of calls", "why_tests_cant": "choices of sites are exponentially many, and the bound by matchings depends on all domains and on which levels have been refuted before.", "anchors": ["gcs/constraints/min_distance/min_distance.cc", "gcs/constraints/min_distance/min_distance.hh"]}
{"id": "C55", "title": "Knapsack allows exactly the assignments with these totals", "statement": "Posting Knapsack on rows of coefficients, variables and totals, with either proof strategy, restricts the solutions to exactly those assignments in which each total is the sum of its row's coefficients times the variables; the strategy never changes the solutions. Posting is refused exactly if the numbers of rows, coefficients, variables and totals do not fit together, or a coefficient, variable or total may be negative; propagation never reads beyond a row.", "quantifier": "all numbers of items and totals, coefficients, repeated variables, views and constants, domains, both strategies, and histories of calls", "why_tests_cant": "partial sums are exponentially many, and which are left out depends on bounds that change while the layers are built.", "anchors": ["gcs/constraints/knapsack/knapsack.cc", "gcs/constraints/knapsack/knapsack_upfront.cc", "gcs/constraints/knapsack/knapsack.hh"]}
{"id": "C56", "title": "Sort allows exactly the sorted rearrangements", "statement": "Posting Sort on two lists of variables restricts the solutions to exactly those assignments in which the second list holds the values of the first in increasing order, as often as they occur there. Posting is refused exactly if the lists differ in length; the propagator never meets a situation it regards as impossible, and never reads beyond a list.", "quantifier": "all lengths, repeated variables (also across the lists), views and constants, domains, and histories of calls", "why_tests_cant": "which values are removed depends on matchings between intervals and on the strongly connected components they form; the cases the code regards as impossible are ruled out by Hall's theorem, not by inspection.", "anchors": ["gcs/constraints/sort/sort.cc", "gcs/constraints/sort/sort.hh"]}
{"id": "C57", "title": "ArgSort allows exactly the stable sorting permutation", "statement": "Posting ArgSort on a list x, a list p and an offset restricts the solutions to exactly those assignments in which p lists the positions of x, counted from the offset, in the order of their values, equal values in the order of their positions. Posting is refused exactly if the lists differ in length; propagation never computes a number that is not a 64-bit integer without throwing.", "quantifier": "all lengths, offsets, repeated variables (also across the lists), views and constants, domains, and histories of calls", "why_tests_cant": "whether an element can be at a position depends on the bounds of all the others and on ties, and permutations are exponentially many.", "anchors": ["gcs/constraints/sort/arg_sort.cc", "gcs/constraints/sort/arg_sort.hh"]}
{"id": "C58", "title": "SmartTable allows exactly the assignments that satisfy a row", "statement": "Posting SmartTable on a list of variables and rows of entries (comparisons of two variables, comparisons of a variable with a value, membership of sets) restricts the solutions to exactly those assignments in which all entries of some row hold; LexSmartTable is lexicographically greater, and AtMostOneSmartTable that at most one variable has the value. Posting is refused exactly if an entry compares a variable with itself; propagation does not throw, except for overflow.", "quantifier": "all numbers of rows and entries, orders in which the entries of a row are gone through, repeated variables, views and constants, domains, and histories of calls", "why_tests_cant": "the entries of a row are made into trees in an order that depends on a hash table, filtered twice and compared by values kept in lists; the shapes of rows are unbounded, and the tests have few of them.", "anchors": ["gcs/constraints/smart_table/smart_table.cc", "gcs/constraints/smart_table/smart_table.hh", "gcs/constraints/lex/lex_smart_table.cc", "gcs/constraints/at_most_one/at_most_one.cc"]}
{"id": "C59", "title": "BinPacking allows exactly the assignments of items to bins with the right loads", "statement": "Posting BinPacking on items, sizes and loads (or capacities) restricts the solutions to exactly those assignments in which every item is in one of the bins and the sizes of the items in each bin sum to its load (or to no more than its capacity). The consistency and the proof strategy change neither the solutions nor, for the strategy, the inferences. Posting is refused exactly if the arguments are not as documented; apart from that only overflow is thrown. What is kept between calls, which is not restored on backtracking, does not change what is inferred.", "quantifier": "all numbers of items and bins, sizes, domains, repeated variables, views and constants, modes, and histories of calls at different depths of search", "why_tests_cant": "bitmaps are updated from the first to the last change since the call before, which may have been in another branch; tests reach few of the histories.", "anchors": ["gcs/constraints/bin_packing/bin_packing.cc", "gcs/constraints/bin_packing/bin_packing.hh"]}
{"id": "C60", "title": "Regular expressions mean what the documentation says", "statement": "Posting Regular with a regular expression restricts the solutions to exactly those assignments in which the values of the variables, in order, make a word that the expression matches, where '.' is any value; regex_to_nfa makes an automaton, all of whose states exist, that accepts exactly the matched words over the given alphabet, and regex_reference_accepts says the same of each word. Exactly the texts that are regular expressions are accepted; for the others InvalidProblemDefinitionException is thrown. A text has only one meaning.", "quantifier": "all texts, of whatever length and nesting; all alphabets and words; all variables, views and domains", "why_tests_cant": "expressions nest without bound and quantifiers multiply states; the tests compare the automaton with a matcher that uses the same parser, for a fixed list of texts and short words, so a precedence or lexing mistake is in both.", "anchors": ["gcs/constraints/regular/regex.cc", "gcs/constraints/regular/regex.hh", "gcs/constraints/regular/regular.cc"]}
{"id": "C61", "title": "Cumulative never lets tasks use more than the capacity, and loses nothing", "statement": "Posting Cumulative with starts, lengths, heights and a capacity, and possibly presences, restricts the solutions to exactly those assignments in which, at every time, the heights of the tasks that are present and running then add up to at most the capacity. Whatever rules are switched on or off changes only how much is pruned. Vectors of different sizes, lengths, heights or capacities that may be negative, and presences that may be something else than 0 and 1, are refused with InvalidProblemDefinitionException.", "quantifier": "all numbers of tasks; all variables, constants, views and repetitions as starts, lengths, heights, presences and capacity; all domains; all settings of the rules", "why_tests_cant": "the pushes use a profile computed before the bounds moved and subtract the load of a task at its newer bounds, and the overload check adds energies over all windows; the tests enumerate small instances with a few tasks and time steps.", "anchors": ["gcs/constraints/cumulative/cumulative.cc", "gcs/constraints/cumulative/cumulative.hh", "gcs/constraints/innards/task_presence.cc"]}
{"id": "C62", "title": "Disjunctive never lets two tasks overlap, and loses nothing", "statement": "Posting Disjunctive with starts and lengths, and possibly presences, restricts the solutions to exactly those assignments in which of any two tasks that are present, one ends no later than the other begins; where, unless it is strict, tasks of length 0 are ignored. Whatever rules are switched on or off changes only how much is pruned. Vectors of different sizes, lengths that may be negative, and presences that may be something else than 0 and 1, are refused with InvalidProblemDefinitionException.", "quantifier": "all numbers of tasks; all variables, constants, views and repetitions as starts, lengths and presences; all domains; strict or not; all settings of the rules", "why_tests_cant": "pushes use a profile that is older than the bounds, precedences are detected from the bounds of all pairs, and tasks of length 0 that sit inside another are noticed by a check of their own; the tests enumerate small instances with a few tasks and time steps.", "anchors": ["gcs/constraints/disjunctive/disjunctive.cc", "gcs/constraints/disjunctive/disjunctive.hh", "gcs/constraints/innards/task_presence.cc"]}
{"id": "C63", "title": "The proof strategy of Regular changes neither solutions nor inferences", "statement": "Posting Regular with any of its proof strategies restricts the solutions to exactly those assignments whose word is accepted by the automaton, and each call of its propagator leaves only values that are part of an accepted word. The Bacchus strategy refuses automata that have not exactly one target for some state and value they mention, with UnimplementedException, and only those.", "quantifier": "all automata, numbers of variables, variables, constants and views; all domains; all strategies", "why_tests_cant": "the strategies are three separate implementations of the same decremental graph, and the tests compare them on a few automata and word lengths.", "anchors": ["gcs/constraints/regular/regular.hh: with_proof_strategy", "gcs/constraints/regular/regular.cc: Regular::prepare", "gcs/constraints/regular/regular_bacchus.cc", "gcs/constraints/regular/regular_legacy.cc"]}
{"id": "C64", "title": "The AutoTable presolver does not change the solutions", "statement": "Adding an AutoTable presolver for some variables does not change which solutions are found. It tabulates those combinations of values of its variables that propagation does not refute, each once, among which are those of all solutions; it leaves the state, constraint states and watches as they were; the table it adds is satisfied by each solution with exactly one value of the selector; and if it ends the solve because it found nothing, there is no solution.", "quantifier": "all problems; all variables, constants, views and repetitions given to the presolver; all domains and constraint states at the time it runs", "why_tests_cant": "the presolver runs a search of its own, with guesses, epochs and watches, in the state and propagators that the real search uses afterwards; anything it fails to restore would show only in some later search. The tests compare solution sets of a few problems.", "anchors": ["gcs/presolvers/auto_table/auto_table.cc", "gcs/solve.cc", "gcs/innards/propagators.cc", "gcs/constraints/extensional_utils.cc"]}
{"id": "C65", "title": "Heuristics and presolvers are told the truth about what was posted", "statement": "After any sequence of posting propagators and disabling constraints, the degree of a variable (or a view of it) is the number of propagators about it; the constraints of a variable, the scope of a constraint and the scope of a propagator are exactly what was declared, each listed once; every constraint has one index and one identity; and a propagator is disabled exactly if its constraint was disabled after it was posted.", "quantifier": "all sequences of posting and disabling, all triggers, views, constants and repetitions", "why_tests_cant": "the books are kept incrementally in several vectors indexed differently; whether they agree depends on the order and repetition of calls. A wrong entry does not change the solutions, so that tests comparing solutions do not see it.", "anchors": ["gcs/innards/propagators.cc", "gcs/search_heuristics.cc"]}
{"id": "C66", "title": "Weighted degrees, and saving, loading and merging weights", "statement": "After any sequence of conflicts and restarts, the weighted degree of a variable is the sum, over the constraints that are about it and about at least two variables that are not fixed, of the weights that its scheme documents: one more than the number of conflicts (classic), the exponential recency score (Conflict-History Search), or local weights by arity and domain size (refined weighting). Before any conflict it equals the degree of the variable. Weights that were saved and loaded in another problem are kept for the constraints that both have, and are the default for others. Merging two saved states combines them entry by entry.", "quantifier": "all problems, all sequences of conflicts and restarts, all domains at the time of a conflict and when the degree is asked for", "why_tests_cant": "the weights depend on the whole history of a search. Wrong weights do not change solutions, and the tests look at a few short histories.", "anchors": ["gcs/variable_weighting.cc", "gcs/variable_weighting.hh", "gcs/innards/propagators.cc", "gcs/solve.cc"]}
{"id": "C67", "title": "DifferenceConstraints has the right solutions, and always finds its negative cycle", "statement": "The solutions of a problem with DifferenceConstraints are those for which x - y <= d for every edge whose condition holds or that has none, whatever views, constants, repeated variables or edges from a variable to itself there are. While it is propagated, nothing is thrown except for an overflow: whenever the system is refuted, a negative cycle is found. Posting throws exactly if an operand is a negated view, or if there is an overflow. If the domains have no holes, one call that does not fail leaves only values that are part of an assignment within the domains for which all edges hold whose conditions are true.", "quantifier": "all sets of edges, conditions and domains", "why_tests_cant": "finding a cycle from predecessors that change while bounds are being improved is right only because of an argument about all orders of improvement; tests have small graphs, and a cycle that is not found shows as an exception only for some orders of edges.", "anchors": ["gcs/constraints/difference/difference_constraints.cc", "gcs/constraints/difference/difference_graph.cc", "gcs/constraints/difference/difference_constraints.hh"]}
{"id": "C68", "title": "Simplification of difference constraints loses nothing, and finds everything", "statement": "Given differences that hold and differences that may or may not hold, simplification reports a negative cycle exactly if those that hold cannot all be satisfied. Otherwise the ones it leaves imply all that held, a difference that may hold is removed exactly if it is implied by those that hold, and is ruled out exactly if it contradicts them, with a path that together with it makes a negative cycle. It always ends, and throws nothing but an overflow.", "quantifier": "all graphs, weights and roles of edges", "why_tests_cant": "which of several equally short edges may be left out depends on zero-weight cycles and ties; leaving out one too many only shows if nothing else implies it in the particular graph.", "anchors": ["gcs/constraints/difference/difference_simplify.cc", "gcs/constraints/difference/difference_simplify.hh"]}
{"id": "C69", "title": "DifferenceConstraints means the same whether or not it is simplified at the root", "statement": "Posting DifferenceConstraints with simplification at the root (the default) has the same solutions as without: the initialiser removes no solution, throws nothing but an overflow, and ends; and in every state of the search after it, the propagator, which then only looks at the edges that were kept and makes fewer rounds, still keeps every solution of all edges that were posted, fails when everything is fixed and an edge whose condition holds is violated, and pushes every bound that all the edges imply. After it no condition that is left undecided is contradicted or made pointless by the edges that are known to hold.", "quantifier": "all lists of edges, with views, constants and conditions, all domains, and all states of the search after the root", "why_tests_cant": "an edge that is dropped at the root is gone everywhere in the search tree, so a mistake shows only in a subtree where the edges that were supposed to imply it do not.", "anchors": ["gcs/constraints/difference/difference_graph.cc", "gcs/constraints/difference/difference_simplify.cc", "gcs/constraints/difference/difference_constraints.hh"]}
{"id": "C70", "title": "A tree of intervals finds exactly the intervals that contain, or are inside, another", "statement": "Whatever intervals are inserted into an IntervalTree, in whatever order and however often, for_each_containing visits exactly the inserted intervals that contain the given one, and for_each_contained_in exactly those inside it, each once and in increasing order. No null pointer is followed.", "quantifier": "all sequences of insertions, all priorities, all queries", "why_tests_cant": "which subtrees are skipped depends on the shape of the tree, which depends on the order of insertion and the random priorities; an augmentation that goes stale in one kind of rotation makes only some queries miss something.", "anchors": ["gcs/innards/interval_tree.hh"]}
{"id": "C71", "title": "Range literals in a proof are linked so that unit propagation sees what they say together", "statement": "Whatever equality and range literals on a variable are needed while a proof is logged, in whatever order: each is defined once; every clause written to link them is true for each value the variable can have, and mentions only literals already defined; and unit propagation over those clauses alone makes a literal false once each of its values is in a literal that is false, makes every literal inside a false one false, and reaches a conflict once every value is in a literal that is false. Containment edges are written between immediate neighbours only.", "quantifier": "all bounds, all sequences of requests, all partial assignments to the literals", "why_tests_cant": "whether a covering or a containment edge is missing depends on the order in which literals with overlapping intervals were first needed; a proof that is rejected for a missing link needs a particular history.", "anchors": ["gcs/innards/proofs/names_and_ids_tracker.cc (need_invar, init_interval_partition, ensure_partition_cut, link_immediate_containment, define_plain_invar, need_direct_encoding_for)"]}
{"id": "C72", "title": "Whatever is true of a variable's order, equality and range literals follows by unit propagation", "statement": "Whatever order, equality and range literals on a variable are needed, in whatever order, the lines written to define and chain them are true for each value that the variable can have, and any clause over those literals that is true for each such value follows from the lines by reverse unit propagation. So every clause that links range literals is accepted by a proof checker.", "quantifier": "all bounds, all sequences of literals, all clauses over them", "why_tests_cant": "a chain that misses a neighbour fails only for the orders of definition in which that neighbour came last, and only for clauses that need the missing step.", "anchors": ["gcs/innards/proofs/names_and_ids_tracker.cc (need_gevar, need_direct_encoding_for, define_plain_invar)"]}
{"id": "C73", "title": "A makespan bound from energy holds in every schedule, and is the strongest that the argument gives", "statement": "When a Cumulative constraint is used to bound a makespan from below, the bound is at most the makespan of every schedule that respects the capacity at each time, the bounds of the start variables and the posted rows from starts to the makespan. It is better than what those rows say alone. For any larger makespan in the range searched there are starts, within bounds and rows, that need no more of the resource than the times at which tasks may run supply.", "quantifier": "all tasks, lengths, heights, windows, links, capacities, known bounds and horizons", "why_tests_cant": "a bound that is one too large removes an optimal schedule only if its makespan is the bound itself, which needs tasks that leave no slack at all; the windows that matter depend on all tasks at once.", "anchors": ["gcs/constraints/innards/makespan_energy.cc (makespan_energy_bound)", "gcs/constraints/innards/window_energy.cc (window_energy_bound)", "gcs/presolvers/innards/makespan_links.cc (find_makespan_links)", "gcs/constraints/cumulative/derived_cumulative.cc (the initialiser for the makespan)", "gcs/constraints/cumulative/cumulative.cc (prepare_cumulative_overload_check)"]}
