# Formal model of the Glasgow Constraint Solver — design

Source: `/repo` (ciaranm/glasgow-constraint-solver, pinned). Model and proofs: `/verif/lean` (Lean 4.33, Mathlib modules imported
one at a time where needed). Property list: `properties.jsonl`. Property → theorem map: `MANIFEST.json`.

## Trusted base

* Lean 4's kernel. No `native_decide`, `bv_decide`, `sorry`, `admit`, or user axioms anywhere.
* Axioms used: at most `propext`, `Classical.choice`, `Quot.sound` (the ones Lean's own library uses). `Verif/Axioms.lean` prints
  them for every theorem named in `MANIFEST.json`.
* The correspondence between the C++ and the Lean definitions is by reading: each definition cites the file and lines
  it models, and says where it simplifies.
* C++ standard library containers are modelled by their documented behaviour (`vector`/`small_vector`/`list` as `List`, `optional` as
  `Option`, exceptions as an error outcome of `Except`).

## Modelling conventions

* `Integer` (checked `long long`) is `Int`, with a predicate `InI64` and checked operations returning `Except Err Int`; leaving the range is
  `Err.overflow`, matching the exception `IntegerOverflow` the code throws.
* Undefined behaviour (e.g. `lower()` of an empty `IntervalSet`, out of range `operator[]`, negative `as_index`) is a distinct outcome `Err.ub`, not a
  default value. Theorems say which preconditions exclude it.
* Exceptions are `Err` values; a theorem about a function that may throw says what holds when it does not, and a separate theorem says when
  it does not throw.
* Unbounded recursion (search, restart loop) uses fuel; correctness theorems hold for every fuel at which the function returns, and
  a termination theorem gives the fuel where the code does terminate.
* Non-determinism supplied from outside (heuristics with random generators, user callbacks, abort flag) is a function parameter that
  receives the whole history, universally quantified in the theorems.

## Layers

| Layer | Lean | C++ | Properties |
|---|---|---|---|
| L0 integers | `Model/Integer` | `integer.hh`, `integer_overflow.hh`, `power.cc` | C01–C03 |
| L1 interval sets | `Model/IntervalSet` | `interval_set.hh` | C04–C07 |
| L2 variables, conditions, literals | `Model/Literal` | `variable_id.cc`, `variable_condition.hh`, `literal.cc` | C08–C10 |
| L3 state | `Model/State` | `state.cc`, `current_state.cc` | C11–C17 |
| L4 propagation engine | `Model/Queue`, `Model/Propagate` | `propagators.cc`, `inference_tracker.hh` | C18–C24 |
| L5 search | `Model/Search`, `Model/Heuristics`, `Model/Nogoods` | `solve.cc`, `restarts.cc`, `search_heuristics.cc`, `constraints/nogoods/nogoods.cc` | C25–C35 |
| L6 posting, constraints | `Model/Constraint`, `Model/Solve`, `Model/Cons/*` | `problem.cc`, `solve.cc`, `constraints/*` | C36–C42, C47, C48, C50–C73 |
| L7 proof-log encodings, text | `Model/Pb`, `Model/PbSession`, `Model/SExpr`, `Model/Names` | `innards/proofs/{bits_encoding,emit_inequality_to,simplify_literal,proof_model,names_and_ids_tracker}.cc`, `s_expr.cc`, `problem.cc` | C43–C46 |

## Plan per property

* C01–C03: checked operations on `Int` with explicit range tests; theorem = "returns ok r iff exact value in range, and then r is the exact value".
  The fallback overflow tests are modelled with every intermediate computed by an operation that yields `ub` out of range; proof that
  it returns `ok (decision)` for every pair. Power: loop with invariant `result * b^e = base^exp`.
* C04–C06: list of pairs; abstraction `Mem x s`; canonical form `WF`; each mutator is a recursive function over the list; induction.
* C07: false of the code at the limits (loop `++i` throws after the last value, and `each_interval_minus` computes `max+1`): proved as a negation with
  witness, with the positive theorem (`_partial`) for sets strictly below the limit.
* C08–C10: evaluation of variables and conditions under an assignment; case analysis.
* C11–C15: `State` is a stack of epochs of domains; infer/test functions through `deview`. Spec is set-theoretic. C14's ascending order is false for
  negated views: negation with witness and `_partial`.
* C16–C17: transition system of State operations; induction on histories.
* C18–C24: concrete sparse-set queue and trigger tables; engine loop; invariants. A propagation function is an arbitrary finite tree of the operations the
  inference tracker and watch context offer, with access to the whole system on each read (`Prog`); so theorems about all `Prog` cover every propagator.
  `Prog.OK` states the rules of the tracker, `Prog.Sound` that only implied literals are inferred. `propagate_ind` is the induction principle over
  everything a call does; C20–C22 are instances. C23 is false of the code when a round contains an
  idempotence claim: witness + partial theorem.
* C25–C32: search function parameterised by a contract (`Spec/Search.lean`); induction on fuel. The contract is proved for engines made of sound, checking
  propagators (`solve_contract`), also with learning (`restarts_contract_scan`, `restarts_contract_partial`).
* Propagators are verified with `Prog.Ver` (`Spec/Ver.lean`), which follows a propagation function with the domains at each point. `Implements` says that a
  function is right for a constraint, relative to the domains at the time of posting; it gives all that engine, search and learning ask for.
* C33–C35: each value generator is a function of domain and random draws to a list of conditions. Split heuristics on negated views fail: witness.
* C36–C42, C47: propagators are programs that query the state and infer; soundness = no solution removed, checking = violated total assignment
  is rejected.
* C39, C49: the matching is found by an augmenting path search on a graph, and edges are pruned by strong components, as in the code; the proof is by the theory of
  alternating paths and cycles. The matching kept between calls is arbitrary (any list in which no value occurs twice).
* Constraints that keep backtrackable state, or that rely on what their initialisers have done (`AllDifferent`, `Inverse`, ...), are verified with `Prog.VerS` and `Serves`
  (`Spec/Stateful.lean`): an invariant of domains and constraint states that holds after the initialisers, is maintained, and is not lost by removing values. The search theorems for
  problems of such constraints (`Props/Stateful.lean`) are derived from those for stateless ones by guarding each function with a test for its invariant. Handles of constraint states are
  parameters, as is the way a state is packed into `std::any` (`Kind`).
* Constraints that add variables of their own (`Table` and its selector) are stated with those variables first, and then without: `Means` (`Props/Hidden.lean`) says what a constraint with
  hidden variables means for the others. As no two reported solutions agree on all branching variables, each solution of the problem of the user is still reported exactly once
  (`hidden_enumerates`). Auxiliary variables are parameters of the model of `install`, as if created before: in the code `prepare` creates them.
* Lexicographic comparison keeps the number of pairs known to be equal; the passes for the constraint and for its negation share it. The flags of its proof encoding are not modelled.
* Element is modelled in any number of dimensions, as the template is. Arrays of integers are arrays of constants, with the branches the code has for them. `check_array_dimensions` compares rows only with the first of the same parent, so from three dimensions on it accepts arrays that are not regular; there is no public constructor for those, and `element_right` assumes a regular array.
* Tables made by arithmetic constraints (`Plus`, `Minus`, `Multiply`, linear equalities): in the code an initialiser makes the table after the cheaper initialisers of all constraints have run and
  allocates the selector then. Here it is made when the constraint is posted, and the selector is there before. `Tabulates` says that a table lists the solutions and no others. A view of the result of
  `Multiply` may have values that do not fit, on which the propagator throws: `multiply_means` excludes them.
* `Power` with a constant exponent is a chain of multiplications through variables for the intermediate powers and a list of gated linear equations (`Stages`), run in turn until nothing changes. These variables
  are hidden too. `power_means` assumes that they were given the bounds that `ranges` computes, as `prepare` does.
* `Divide` and `Modulus` share one set of stages on the absolute values of quotient and divisor, which are hidden variables with the bounds that `magnitudes` computes. The table of `Modulus` includes the hidden
  quotient; `modulus_right` and `modulus_means` show that it is implied. Truncated division is `Int.tdiv`/`Int.tmod`, in elementary terms in `DivMod.truncated`.
* The incremental linear propagator keeps, in a constraint state, the terms that have no value yet, visited in an order that may be any permutation each time; the vector that the code shares between epochs is
  modelled separately, and shown to agree with this in all histories of entering and leaving epochs (`sparseSet_refines`).
* Waking linear inequalities by slack (off by default): the choice of terms to watch is modelled and shown to be enough (`linearSlack_enough`); how the watches are registered and kept is not.
* C50: `Regular` and `MDD` share one model of their graph (`Model/Cons/Layered.lean`), for automata that depend on the layer and may be non-deterministic. The invariant of the decremental algorithm says which
  counters, supports and edges may be wrong while a removal is under way (`Layered.Inv`), and that every edge lies on a path from the root to an accepting node; no path is lost but those with an edge taken out.
* C51: `GlobalCardinality` at its default level is a list of loops over the cover, sorted by value; sums of bounds that earlier rounds have made out of date are only weaker, and the proof carries them as
  bounds that hold for all solutions (`Upper`, `Lower`). `std::binary_search` is the algorithm of the GNU library. At the GAC level the flow network, its reduction to a maximum flow, the search for a violated set of values without a feasible flow, the residual
  graph and its components are modelled (`Model/Cons/Flow.lean`, `Model/Cons/GlobalCardinalityGac.lean`). The network is proved equal to a specification of it (`netw`); a solution is a circulation in it (`use`);
  an edge without flow that a circulation uses lies on a cycle of the residual graph (`Circ.back`); without a feasible flow, a minimum cut (`Partial`) shows that the sets that the code grows are violated
  (`cap_count`, `dem_count`), so that it never gives up by throwing. Capacities are unbounded integers in the model and `long long` in the code; the loop before leaves every count between 0 and the number of variables, so these agree.
* C52: both algorithms of `Circuit` are modelled (`Model/Cons/Circuit.lean`), without proof logging and without the extra all-different that `with_gac_all_different` asks for. What is asked for is `Tour`
  (`Spec/Circuit.lean`). For `circuit::SCC` the depth-first search with low links is proved to leave a strongly connected graph (`checkSccs_ver`), by invariants on the visit numbers and on the subtrees of the
  root; what is pruned by skipping a subtree rests on `Loop.noSkip`. For `circuit::Prevent` the invariant (`Good`) says what the chains in the constraint state mean, for each assignment that gives all
  nodes different successors. Recursion depth and the `int` for lengths of chains are not bounded in the model.
* C53: `Disjunctive2D` is modelled (`Model/Cons/Disjunctive2D.lean`) without proof logging: constructor, `prepare`, triggers, and the propagation function with its three passes. It relies on sizes not being negative, which was checked at the time of posting, so the theorem is of the kind that may rely on domains only getting smaller (`served_rooted`).
* C54: `MinDistance` is modelled (`Model/Cons/MinDistance.lean`) without proof logging: the checks of `prepare`, the initialisers, and the three propagation functions (checking, forward bound with and without the scan for supports, and the bound by greedy matchings). They read the matrix at values of the points, which the initialisers have restricted to be sites, so the proof is of the kind that may rely on the initialisers (`Inits.servedAll`). The bound by matchings is shown never to cut off a solution; that the exception it may throw is never thrown is part of `minDistance_right`.
* C55: `Knapsack` is modelled (`Model/Cons/Knapsack.lean`) with both proof strategies, without the proofs: the checks of `prepare`, the layers of partial sums, the pass from the back, and for `Upfront` the nodes found at the time of posting. The two implementations are written twice in the code and share their model, with what differs between them as a parameter (`Way`). Invariant: the layers contain what every solution goes through. **Finding:** `PerCall`, the default, does not compare the number of coefficients with the number of variables (`knapsack.cc:594-601`), as `Upfront` does (`knapsack_upfront.cc:867-868`): rows that are too short are accepted and propagation throws `std::out_of_range` (`knapsack_short_wrong`); of rows that are too long the rest is ignored.
* C56: `Sort` is modelled (`Model/Cons/Sort.lean`) without the proofs, but with the search for the Hall intervals that the proofs would use, since the code throws `UnexpectedException` if it finds none. Snapshot of the bounds, their normalisation, the two sweeps with a priority queue (the queue is a list, and the least entry is taken, ties broken by the index as in the code), the components (shared with the GAC propagators, `Gac.Scc.roots`), the narrowing of both lists. Proved by: if a sweep gets stuck there is an interval too small for what it must hold (`places_or_band`); a solution within the domains is a perfect matching of the intervals, so bounds of components bound it (`Sol.from`, `Sol.to`); for the exceptions, the converse: what lies beyond a component's bounds is cut off by a tight interval (`Lemmas/Cons/SortCertain.lean`). That each bound left is supported (bounds(Z) consistency) is not stated.
* C57: `ArgSort` is modelled (`Model/Cons/ArgSort.lean`) without the proofs: the variables for the sorted values that it allocates, the sortedness propagator it shares with `Sort`, channelling of positions, values and places, the check of which positions are possible by counting those that must or may come before, and the propagator for all-different positions. Specification: a rearrangement of the positions, consecutive ones in order of value and then of position (`Spec/ArgSort.lean`); that there is only one is proved (`argSort_unique`). Proved by: the place of an element is the number of those before it (`ArgSorts.rank`), this number for given bounds is an interval whose ends are found by trying the bounds of the others and one beyond them (`Tries.exact`). **Finding:** the one beyond is computed on the raw values (`arg_sort.cc:355`), hence undefined behaviour if an element may be the least or greatest 64-bit integer (`argSort_extreme_wrong`).
* C58: `SmartTable` is modelled (`Model/Cons/SmartTable.lean`) without the proofs: the check when it is made, the forest of each row (for any order of the variables in the hash table), the values of variables as vectors with the functions that are to make views work, the two passes over each tree, the unsupported values, and the selectors of rows (as a state that is restored, since nothing else is about them); `LexSmartTable` and `AtMostOneSmartTable` as rows. Specification in `Spec/SmartTable.lean`, with what a cycle is (`Linked`, `Acyclic`). Proved by: every entry is in exactly one place of the forest and the two variables of an entry meet only there (`forest_ok`), so that all solutions of a row survive both passes and the second pass only looks at vectors that are not empty. **Findings** (theorems named `…_wrong` and `…_throws` in `Props/Cons/SmartTable.lean`, all accepted when posted): an entry that closes a cycle is ignored (`smart_table.cc:550-569` skips nodes that were visited), so `x ≤ y` and `x ≠ y` in a row is `x ≤ y`; `set_for_actual_var` fills a vector of the old size from a smaller one (`:134-142`), so that a row about a view is not found to be impossible, and if the view is itself in the list of variables, values are put under its underlying variable and looked up under the view, so that solutions are lost; a variable given twice has its values twice, so that a `≠` is never found false; constants and variables that are not in the list throw during propagation; `LexSmartTable` with a longer first list that begins with the second does not allow what `LexGreaterThan` allows. Also (not a matter of solutions): both passes go through the entries deepest first, so support is not exact.
* C59: `BinPacking` is modelled (`Model/Cons/BinPacking.lean`) without the proofs: the checks, the bounds pass, the graphs made when posting, the incremental sweep over bitmaps with its scratch, and the other strategy's walk with predecessors and pass from the back. Specification in `Spec/BinPacking.lean`. Proved by: bounds on what is put in a bin (`Scanned`); the graph has all that can be got to (`Closed`), so that the walk has the path of every solution (`Trail`). The propagation function of the model sweeps with fresh scratch, and `binPacking_sweep_idle` shows, by induction over histories, that the scratch is then always what a fresh one would become (`IsF`, `IsB` determine it). **Findings**: (1) `per_bin_cap` adds sizes as `long long` (`bin_packing.cc:175-178`): undefined behaviour at posting if the sum is not a 64-bit integer, for GAC, which is the default (`binPacking_total_ub`). (2) The default sweep (`run_stage3_for_bin`) uses neither loads nor capacities, and all of the last layer counts as reached, so every item has support: it never prunes anything (`binPacking_sweep_idle`). So the documented consistency for each bin does not hold by default, the two strategies do not draw the same inferences although `bin_packing.hh:31-41` says so (`binPacking_strategies_differ`), and the default does the work of both passes for what the first of them infers.
* C60: all of `regex.cc` is modelled (`Model/Cons/Regex.lean`): the lexer over characters, the recursive-descent parser (with fuel that is proved enough), Thompson's construction with its builder, the removal of empty moves with the breadth-first numbering, the reference matcher; and the part of `Regular` that finds the alphabet from the domains. The parser recurses as deep as the text nests; running out of stack is not modelled. Specification in `Spec/Regex.lean`: a grammar as an inductive relation between texts and expressions, and a separate definition of the words that an expression matches. Proved by: soundness and completeness of the parser by induction over fuel and over the grammar with what may follow at each level (`parser_spec`, `parser_complete`); paths in the constructed graph, with an invariant that older parts are not reached from newer ones (`build_right`); a general work-list lemma used for closures and for stars in the matcher (`starLoop_spec`); the numbering (`explore_spec`, `number_spec`). **Findings**: a number of 2^63 and above overflows a signed integer in the lexer (`regex.cc:75-76`), which is undefined, where other bad texts throw (`regex_large`); a range that ends in the largest integer, or a variable that may have it, throws IntegerOverflow because the loop goes one further (`regex_largest`).
* C61: `Model/Cons/Cumulative.lean` has posting (checks, which tasks are active, `task_presence`, what is set up for the overload check with its difference array of reachable times) and the propagator with the rules that are on by default: the mandatory profile, its overflow, the overload check over all windows with the profile of other tasks, and pushing both bounds or ruling out an optional task. Not modelled: the seven rules that are off by default, everything for proofs, and memory for vectors as long as the horizon. Specification in `Spec/Cumulative.lean`: activities that run at integer times, and the sum of the heights of those that do. Proved by: what a task must use is at most what it uses (`must_le`); the profile is the sum of that at the start (`load_roo`), while bounds used for one task may be newer (`blocked_roo`); a sum over a prefix of what is sorted by completion against a sum over times (`window_roo`); when everything is known both sums agree, and outside the horizon nothing runs. **Finding**: cumulative.hh:21-26 says that turning off a rule never changes the solutions found; but with `time_table = false` nothing checks the capacity except for the overload check, which looks only at some tasks and constant capacities, so non-solutions are reported (`needs_timeTable`).
* C62: `Model/Cons/Disjunctive.lean` has posting and the propagator with the rules that are on by default: the horizon, the mandatory profile and its overlap, pushing both bounds or ruling out an optional task, detectable precedences for all pairs, and the check for tasks of length 0 in strict mode. Not modelled: the rules that are off by default, everything for proofs (with it, the search for the two tasks that overlap, and the `UnexpectedException` if there are none), and memory for vectors as long as the horizon. Specification in `Spec/Disjunctive.lean`: of two stretches one ends before the other begins. Proved by: two tasks overlap at an integer time or one is a point inside the other (`alone_of`), so that the profile from C61 with heights of 1 settles the first and `ver_finish` the second; a task that cannot end before another begins comes after it (`neighbours_roo`), also for bounds moved since. Unlike for C61, turning rules off keeps the solutions, as the overlap is looked for in any case.
* C63: `Model/Cons/RegularStrategy.lean` has the choice between the three implementations of Regular (`Regular::prepare`), the conversion to a deterministic automaton, and `RegularBacchus`. `RegularLegacy` is taken to be the model of `Regular`, as read line by line the two differ only in what they write to proofs; that is not proved. Not modelled: everything for proofs, a regular expression with these strategies (C60 has the default one), and the constructors of `RegularBacchus` that `Regular` does not use. Proved with the graph invariant of C50. **Finding**: regular.hh:26-27 and :56-57 say that the strategy never changes the solutions; but `RegularBacchus` lacks the special case for no variables (issue #254 in the code), so that with it a Regular on no variables whose first state is not final allows everything, while it is unsatisfiable with the other two (`regularStrategy_empty_wrong`).
* C64: `Model/AutoTable.lean` has `solve_subproblem` and `AutoTable::run`, on the engine and state of `Model/Propagate.lean`, with branching by `dom_then_deg` and `smallest_first`. Not modelled: statistics, proofs, other presolvers, and running the search with the propagator and the variable that were added, for which every constraint would have to be looked at again with one more variable. Proved by induction on the size of the domains, with the contract of `Spec/Search.lean` weakened to one in which nothing is checked where nothing is left to branch on (`AutoTable.relax`), as the variables tabulated need not be all that constraints are about. Backtracking out of the sub-search restores everything except for the queue (`back_sub`), and the first call of the real search sets up the queue anew. The selector not being a trigger is right (`autoTable_item`).
* C65: `Spec/Books.lean` has what was posted, as a list; the books are those of `Model/Propagate.lean`. Proved by induction on that list (`books_after`).
* C66: `Model/Weighting.lean` has gcs/variable_weighting.cc, with rational numbers for doubles, so nothing is rounded and nothing is infinite; the number of conflicts is not bounded. Division by 0 and negative powers are errors in the model, and are shown not to occur. `Spec/Weighting.lean` has the documented weights; for Conflict-History Search a history in terms of the number of conflicts since the last one of a constraint. Finding: gcs/variable_weighting.hh:192-195 says that at the root the weighted degree equals the degree of the variable. It does not: degrees count propagators, weighted degrees count constraints, and only those about two variables that are not fixed (`root_degree_differs`; `root_degree_partial` has what is needed for it). Also, the arity of a constraint in the documentation of `RefinedWeighting` is that of the propagator that failed, and `on_restart` is called, although its comment says that nothing calls it yet (gcs/solve.cc:412-413).
* C67: `Model/Cons/Difference.lean` has the graph, Bellman-Ford with predecessors, the extraction of cycles and pushing of bounds along the forest, with `simplifying_at_root(false)` and `incrementally(false)`. `Lemmas/Cons/DifferenceNet.lean` has the theory, for any graph: a label that has a predecessor was made from it when it was no better than now, so predecessors that go around have negative weight, and if there are as many rounds as nodes and something improves in the next one, predecessors go around. The claim in dev_docs/difference-logic.md that extraction is total is thereby proved. `difference_consistent` is the claim that it is bounds consistent for the system as a whole, for domains without holes, where it is even domain consistent for the edges that are active: moving all lower bounds up by the same amount, but not above the upper bounds, satisfies all edges. Not modelled: simplification at the root, incremental propagation (both on by default), the presolver, and proofs.
* C68: `Model/Cons/DifferenceSimplify.lean` has `simplify_difference_graph`: Bellman-Ford for a potential, Dijkstra's algorithm with reduced weights and a queue from which nothing is deleted, which edges are redundant, and which conditions are fixed with which path. `Lemmas/Cons/DifferenceShort.lean` has the reason why what is left implies everything: each edge of a shortest path is itself a shortest path, and for each of those one parallel edge is left. Counting cycles of weight 0, which is only for statistics, is not modelled.
* C69: `Model/Cons/DifferenceRoot.lean` has `run_difference_root_simplification`: classifying edges by their conditions, the loop that fixes conditions until nothing changes with the checks of each witness, the graph that is kept and the number of rounds. Each round but the last drops an edge, which is why the loop ends. What is kept implies what is dropped using only edges whose conditions are true at the root, so it does so in every later state; this is why consistency survives. Bellman-Ford needs only as many rounds as there are nodes with edges (`Live`). In the code the initialiser leaves the graph for the propagator in memory that both have; here it returns it, and the theorem is about any later call of the propagator with it. *Disagreement with the documentation*: difference_constraints.hh:28-32 says that a condition is never fixed from the graph, and that posting `b -> x - y <= d` leaves `b` to the search; but simplification, which is on by default, fixes `b` at the root if the other edges contradict `x - y <= d` (the example in `Props/Cons/DifferenceRoot.lean`).
* C70: `Model/IntervalTree.lean` has the treap with its rotations and augmentation, and both queries; the queries are shown to be the in-order list, filtered. The random number generator is replaced by arbitrary priorities. What proof logging does with the intervals is in C71.
* C71: `Model/RangeLiterals.lean` has `need_invar`, the partition into cells, the containment edges and the part of `need_direct_encoding_for` that maintains them, for one variable. The invariant is that the boundaries are sorted, that every cell has a literal, that every literal meeting the bounds is a union of cells, and that unit propagation goes from the cells to the literal and from a literal to what is inside it. The containment tree is a list, which C70 justifies. Order literals and definitions are in C72; views are not modelled.
* C72: `Model/OrderLiterals.lean` has `need_gevar` with its chain and the lines that fix literals outside the bounds, and the definitions of interval literals. Given an assignment closed under unit propagation, the greatest value known to be reached satisfies everything known, so a clause that is false under the assignment is false for a value. The definitions by bits, and so the derivation of the chain, views and the compact encoding are not modelled.
* C73: `Model/Cons/MakespanEnergy.lean` has `window_energy_bound`, `slots_within` and `makespan_energy_bound`, with plain integers; the counts of time slots are those of `prepare` in `Model/Cons/Cumulative.lean`, for which overflow is modelled. The energy of a task is at most its overlap with the window wherever it starts; summing over tasks and times gives the bound. For the converse each task is put as late as it may be. Finding: gcs/constraints/innards/window_energy.hh:126-130 says that `window_energy_bound` is the least overlap over all starts allowed, which is false when the bounds cut off on both sides (`window_energy_not_least`); it is a valid bound always, and the least one as used for makespans. `Model/Cons/MakespanLinks.lean` has `find_makespan_links`: each link is a posted row that must hold, and the strongest one. Presence variables and the derivation in the proof are not modelled.
* NegativeTable is the refined nogood propagator on a store of nogoods that does not change.
* A claim to be idempotent is believed by the engine only if no two triggers are on the same variable, and so `Implements` asks for it only then (`EnforcedIf`).
* Loops of the form "repeat while the pass inferred something" compare domains before and after each pass (`Prog.untilQuiet`); the code asks the tracker.
* C43, C44: rows are weighted 0/1 literals and a degree. `Means` (`Spec/Pb.lean`) says that 0/1 variables represent integers. A session is any sequence of calls
  setting up variables, literals, views and constraints; invariant by induction: the rows are satisfied exactly by 0/1 assignments representing integers
  that obey the bounds and the constraints asked for. Literals are defined by recursion through views, which the model bounds by fuel.
* C45: `parse_s_expr` and the formatter on `List Char`; a grammar in `Spec/SExpr.lean`; accepted = in the grammar, by induction on the reader and on the grammar.
* C46: `check_name` and the calls that use it, with a matcher for the regular expression; induction over histories of calls, including calls that throw.

## What is not modelled

* Proof logging text output and VeriPB itself, except for the encodings named above. Thread scheduling: the solver is single threaded; the abort flag is
  an arbitrary oracle.
* Memory management, `std::generator` frames, hash iteration orders, performance.
* Of proofs: labels (but see `view_labels_clash`), line numbers, proof rules and their justifications, rows derived from others, the naming scheme of
  `cake_pb_cp`, assertion levels above `Off`. So nothing here says that VeriPB accepts a proof.
* Front ends (FlatZinc, XCSP, Python), examples, and constraints not listed in the layers table.

(Findings — places where code and documentation disagree — are listed at the end of this file as they are proved.)

## Findings

* **insert_at_end at the upper bound.** The documentation of `IntervalSet::insert_at_end` only requires the value to be at least `upper()`. With
  `value == upper()` the stored intervals overlap, the class invariant breaks, and `size()` counts the value twice
  (`Gcs.IntervalSet.insertAtEnd_at_upper_breaks`).
* **Iteration at the ends of the integer range.** `each`/`for_each` throw after yielding `LLONG_MAX`, `each_reversed` after yielding `LLONG_MIN`, and
  `each_interval_minus` when the subtracted set reaches `LLONG_MAX` (`Gcs.IntervalSet.iteration_throws_at_range_ends`).
* **`x < LLONG_MIN`.** `infer(x < v)` with `v = LLONG_MIN` (directly or after view adjustment) throws an overflow exception instead of reporting a
  contradiction (`Gcs.infer_can_overflow`).
* **Order of `each_value`.** Documented as ascending; negated views are enumerated in descending order (`Gcs.eachValue_not_ascending`).
* **Inverted range conditions.** A hand-built range condition with lower > upper is `Undecided` for `test_literal`, although `infer` (rightly) treats
  it as false (`Gcs.testLiteral_needs_rangeOK`). The factory functions never build one.
* **Idempotence claims lose watch wake-ups.** In a round with an honoured idempotence claim, `propagate` replays inferences through
  `requeue_unless_already_seen`, which does not look at watches on literals. A propagator woken only by such watches (negative table, refined nogoods,
  learned restart nogoods, slack-watched linear) is then not woken, although its literal became entailed
  (`Gcs.WatchDemo.claims_lose_watches`), and a search can fix all variables to values it rejects (`Gcs.WatchDemo.claims_accept_nonsolution`).
  C23 is therefore proved for claim-free rounds only.
* **Learned nogoods and claims.** Learned nogoods use such watches by default. With an honoured claim, a restarted enumeration can miss a nogood and
  report the same solution twice (`Gcs.Restart.claims_repeat_solution`). With the scanning variant (`GCS_LEARNED_NOGOODS_SCAN`) this cannot happen
  (`Gcs.restarts_enumerate`).
* **Value orders on negated views.** `smallest_first` goes largest first (`Gcs.smallestFirst_not_smallest_first`); the `split_*` orders give an empty branch
  when two or three values are left (`Gcs.split_empty_branch`).
* **`RestartSchedule::luby(0)`.** The cutoff is always 0 (`Gcs.cutoff_zero_scale`), so the search restarts for ever, without reading the abort flag. Very large
  scales wrap modulo 2^64.
* **AllEqual reports unequal values.** `AllEqual` switches itself off for the rest of the branch once its first variable is fixed, without looking at the
  others. If tightening the bounds removed the only values with gaps between them, nothing is passed on to the others first: with x in {0, 5} and y in 0..3,
  (0,0), (0,1), (0,2) and (0,3) are all reported (`Gcs.allEqual_reports_unequal`). With two views of one variable no gaps are needed: `x = x + 1` is
  solved by x = 1 (`Gcs.allEqual_reports_shifted`).
* **Among reports wrong counts.** `Among` decides that all undecided variables must (or must not) have one of the values, changes them one after the other,
  and passes over one that has been decided by then. It then switches itself off. Two views of one variable, or a variable that is also the count, are enough:
  `Among({x, x - 1}, {0}, 0)` reports x = 1 (`Gcs.among_reports_too_many`), `Among({x, x - 1}, {0}, 2)` reports x = 0 (`Gcs.among_reports_too_few`), and
  `Among({x, 1}, {1}, x)` reports x = 1 (`Gcs.among_counts_itself`). Otherwise it is right (`Gcs.among_right_partial`).
* **ArrayMax and ArrayMin throw on aliases.** Having narrowed the result, the propagator counts the variables that can still give each value, and throws
  `UnexpectedException` where it finds none for the values left. If the result and a variable of the array are different views of one variable, this
  happens on problems that have solutions (`Gcs.arrayMax_throws`, `Gcs.arrayMax_throws_solution`) and on ones that have none (`Gcs.arrayMin_throws`).
  Otherwise they are right (`Gcs.arrayMax_right_partial`); with any aliasing, what is inferred is implied (`Gcs.minMax_right_partial`).
* **Reified linear equations without variables.** `LinearEqualityIf`/`Iff` on a sum that is constant and less than the value (`x - x = 5`): if the condition is
  open when the constraint is posted and holds before the propagator first runs, the equation is not enforced, as `propagate_linear` only checks an empty sum
  against `≤` (`Gcs.Linear.linearEqualityIf_wrong`, `Gcs.Linear.linearEqualityIff_wrong`). Otherwise they are right (`Gcs.linearEqualityIf_partial` and others).
* **Linear constraints conditional on constant literals.** `LinearEqualityIf` and `LinearNotEqualsIf` take any literal. `TrueLiteral` always posts the equation
  and `FalseLiteral` its negation: `LinearNotEqualsIf(..., TrueLiteral)` demands equality (`Gcs.Linear.linearNotEqualsIf_true_wrong`), and a false condition
  does not switch the constraint off (`Gcs.Linear.linearNotEqualsIf_false_wrong`, `Gcs.Linear.linearEqualityIf_false_wrong`).
* **Powers of constants, and trivial powers, are not checked.** `Power` reduces these to equations that are passed to `propagate_linear` without a check for empty sums, so the same flaw shows:
  a constant that is too small is accepted, as in `Power(2, 3, 5)`, `Power(x, 0, 0)` and `Power(x, 1, x + 5)` (`Gcs.Power.Demo.power_constants_unchecked`, `power_zero_unchecked`, `power_one_unchecked`).
* **`Power` loses (-2)^63.** `largest_meaningful_exponent` is 62, as 2^63 does not fit, but -2^63 does. For the exponent 63 the base is limited to -1..1, and the solution with base -2 is lost
  (`Gcs.Power.Demo.power_63_loses`). Otherwise constant exponents are right (`Gcs.power_right_partial`, `Gcs.power_means`), and variable ones too (`Gcs.powerTable_right`).
* **AllDifferent with value consistency accepts equal values.** A variable that has a value already when `AllDifferent` is posted with `consistency::VC` is never looked at: with x = 1
  and y in {1, 2}, x = y = 1 is reported (`Gcs.AllDifferent.vc_accepts_equal`). Otherwise it is right (`Gcs.allDifferentVC_right_partial`).
* **Inverse with different starting indices.** The matching algorithm is given the indices of `x` as the values of `x`, but those are indices of `y`. If `x_start` and `y_start` differ,
  solutions are lost, often all of them (`Gcs.Inverse.loses_solutions`). The XCSP front end passes on both indices. Otherwise it is right (`Gcs.inverse_right_partial`).
* **NegativeTable accepts forbidden tuples.** The consequence of the loss of watch wake-ups for a constraint of users: `NegativeTable({x, y}, {{1, 1}})` with
  `Table({z, x, y}, {{0, 1, 1}, {1, 0, 1}})`, branching on z first, reports x = y = 1 (`Gcs.NegativeTable.accepts_forbidden`).
* **Compact encoding of variables without bounds in the model.** With `use_compact_boolean_encoding`, equality with the lower bound is defined by one order literal,
  which is only right if the bounds are in the model. They are not for variables that are registered in the proof only (`Gcs.Pb.compact_needs_bounds`).
* **Labels of views.** The rows that define `-x + 3` and `-y` have the same labels if `y` is named `x_plus_3` (`Gcs.Pb.view_labels_clash`). Labels of views are not
  checked for clashes.
* **MDD for no variables.** `MDD` on an empty sequence never fails, although the documentation says that the assignment is accepted only if the root is one of `accepting_terminals`: a problem with such a
  diagram and no accepting node has solutions (`Gcs.mdd_empty_wrong`). `Regular`, of which `MDD` is said to be a generalisation, has a special case for this.
* **GlobalCardinality with a value twice.** `GlobalCardinality({x}, {1, 1}, {1, 1})` for x = 1 satisfies what is documented, but has no solution (`Gcs.globalCardinality_twice_wrong`): sums over intervals of the
  cover count the variable twice. This is so at the GAC level, too (`Gcs.globalCardinality_gac_twice_wrong`).
* **GlobalCardinality at the GAC level with values out of order.** `clone()` sorts the cover only for `consistency::BC` (global_cardinality.cc:69-76), but the GAC propagator looks values up by
  `binary_search` (gac_global_cardinality.cc:205-207). Unless the constraint is closed, solutions are lost: with x in {1, 2}, values {2, 1} and counts {0, 1}, the solution x = 1 is not found
  (`Gcs.globalCardinality_gac_unsorted_wrong`).
* **Circuit may not finish.** `prevent_small_cycles` follows a chain of fixed successors until it ends or comes back to its first node (circuit_base.cc:91-100). A chain that leads into a cycle which its first
  node is not on does neither. Its comment says that all-different may not have been fully propagated; but this can happen after the pruning by components, which may fix two successors to the same node. With
  the domains in `Gcs.Circuit.Hang.root`, seven nodes, posting `Circuit` with the default algorithm never ends (`Gcs.Circuit.circuit_scc_hangs`).
* **Circuit with no nodes.** The default algorithm writes to the first element of an empty vector (`Gcs.circuit_scc_empty`); `circuit::Prevent` does not.

The following were noticed while modelling. They are visible in the model, but no theorem is about them.

* The documentation of `SeqPrecedeChain` begins by saying that v - 1 has to come before any positive v, which for v = 1 would ask for a 0. The code starts from 2, as is said after that.
* After a contradiction some `infer` operations leave the domain empty, others leave it as it was.
* `AtMostOne` changes `val` while iterating over `each_value_immutable(val)`, which `state.hh` (398–400) forbids. It is harmless, as the generator has its own
  copy of the values.
* `State::clone` does not copy guesses and extra proof conditions.
* `restarts.hh` says enumeration with restarts throws `UnimplementedException`; the code does not throw.
* The builtin path of `operator+=`/`-=` stores the wrapped result before it throws.
* In optimisation, the root call of a restarted pass has the objective bound as its guess, so it takes the path for children: nogoods learned in the
  pass before are not set up in this pass.
* If the abort flag were unset between `propagate` returning and the flag being read again, an incompletely propagated node would be taken as settled. C29
  assumes that the flag stays set.
* Without restarts the conflict limit is 2^64-1; reaching it would dereference an empty optional (`Err.ub` in the model).
* `variable_order::with_largest_value` is declared but not defined.
* The scanning nogood propagator may record the same position twice as its pair of watches when it first sees a nogood below the root.
* `Propagators::initialise` only notices a contradiction from an initialiser through the exception.
* `GCS_CHECK_IDEMPOTENT_CLAIMS` is not modelled. Termination with restarts is proved for fewer than 2^63 assignments.
* `SExpr::atom` accepts strings that are not tokens, and these do not survive printing and parsing (`round_trip_wrong`, `round_trip_other`).
* `problem.hh` says that the name of a variable "does not have to be unique"; a second use throws `NamingError` (`same_name_throws`).
* A variable whose name is refused has already been added to the state, and stays there (`refused_stays`). Anonymous variables and anonymous constraints
  are both printed as `_1`, `_2`, … (`anonymous_shared`). `std::regex` is modelled by a matcher for the one expression used; its recursion depth is not.

## Wrong programs

`seeded/LOG.jsonl` records edits to the model and what broke. Each record lists the first declarations that failed, as `lake` does not go on to modules that depend on a failed one.
A failed build shows that some proof broke; for the records labelled with the property theorem it was also checked that the statement excludes the edit. Edits that make the code slower or
differently organised without making a claim false (`Pb.highestAbsValue`, `Equals.install`, `Increasing.down`, `Sys.advance`, `Sys.settle`) may break proofs too. `Engine.disableConstraints` and
`Engine.increaseDegree` survived: no property was about degrees or repeated disabling then.
