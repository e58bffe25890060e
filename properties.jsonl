{"id": "C01", "title": "P-minimal returns exactly the Pareto front", "statement": "If `solve` on a freshly built P-minimal solver returns `Done`, the cost vectors in `pareto_front()` are exactly the non-dominated cost vectors of the instance (none missing, none extra), and no cost vector is listed twice.", "quantifier": "every well-formed instance with any number of objectives and variables, every option setting without solution enumeration beyond what is stated, every correct SAT oracle (whatever models and cores it chooses), every correct objective encoding", "why_tests_cant": "tests check a handful of instance files with one oracle build; the result depends on the whole (unbounded) sequence of oracle answers", "anchors": ["core/src/algs/pminimal.rs: alg_main, p_minimization, enforce_dominating, dominated_block_clause", "core/src/algs.rs: yield_solutions"]}
{"id": "C02", "title": "LowerBounding returns exactly the Pareto front", "statement": "If `solve` on a freshly built LowerBounding solver returns `Done`, the cost vectors in `pareto_front()` are exactly the non-dominated cost vectors, each listed once.", "quantifier": "every well-formed instance, every correct oracle including every choice of unsatisfiable cores, every correct encoding", "why_tests_cant": "the fence is driven by the cores that the oracle happens to return; tests see one choice", "anchors": ["core/src/algs/lowerbounding.rs: alg_main, update_fence, harvest"]}
{"id": "C03", "title": "BiOptSat returns exactly the Pareto front", "statement": "If `solve` on a freshly built BiOptSat solver (two objectives, no core boosting) returns `Done`, the cost vectors in `pareto_front()` are exactly the non-dominated cost vectors, each listed once.", "quantifier": "every well-formed bi-objective instance, every correct oracle, every correct encoding", "why_tests_cant": "depends on the whole sequence of oracle answers and on the interplay of bounds over all iterations", "anchors": ["core/src/algs/bioptsat.rs: bioptsat, alg_main", "core/src/algs.rs: linsu, linsu_yield, yield_solutions"]}
{"id": "C04", "title": "Anytime soundness of the reported points", "statement": "Whatever way a first call to `solve` ends (Done, any limit, asynchronous interrupt, logger failure), every point in `pareto_front()` is a truly non-dominated cost vector of the instance and no two points have equal costs.", "quantifier": "every instance, all limits, every interrupt time, every logger failure time, every correct oracle, all three algorithms, all enumeration modes (with the default blocking clause)", "why_tests_cant": "the interrupt or failure can hit between any two steps; tests never cut a run at every point", "anchors": ["core/src/algs.rs: check_termination, log_candidate, log_oracle_call, log_solution, log_non_dominated, yield_solutions", "core/src/algs/pminimal.rs", "core/src/algs/lowerbounding.rs", "core/src/algs/bioptsat.rs"]}
{"id": "C05", "title": "Reported solutions are feasible and attain the reported cost", "statement": "Each solution listed with a point of `pareto_front()` is the restriction to the instance variables of an assignment that satisfies all clauses and whose objective values, including offset and unit weight, are exactly the costs of that point; every point lists at least one solution.", "quantifier": "every instance, every outcome of `solve`, all three algorithms, every enumeration mode", "why_tests_cant": "needs to hold for each model the oracle may return, and for the offset/multiplier bookkeeping on all values", "anchors": ["core/src/algs.rs: externalize_internal_costs, get_cost_with_heuristic_improvements, yield_solutions", "core/src/types.rs: NonDomPoint, Objective"]}
{"id": "C06", "title": "Solving terminates", "statement": "`solve` performs finitely many steps: for every instance there is a bound on loop iterations, valid for every correct oracle, after which each of the three algorithms has returned.", "quantifier": "every well-formed instance, every correct oracle (an adversarial one included), every correct encoding, every enumeration mode", "why_tests_cant": "a test that runs to its end says nothing about another oracle or instance", "anchors": ["core/src/algs/pminimal.rs: alg_main, p_minimization", "core/src/algs/lowerbounding.rs: alg_main, harvest", "core/src/algs/bioptsat.rs: bioptsat", "core/src/algs.rs: linsu, yield_solutions"]}
{"id": "C07", "title": "Solving never panics", "statement": "No `unwrap`, `expect`, `unreachable!`, index or debug assertion reached from `solve` fails, and no error is returned unless the logger fails: encodings are always asked only for bounds that have been encoded before, solutions and cores are only fetched in the matching oracle state.", "quantifier": "every well-formed instance whose limits are positive and whose costs fit `isize`, every correct oracle, every interrupt time", "why_tests_cant": "panics hide in rare interleavings such as a bound on the edge of the encoded range", "anchors": ["core/src/algs.rs", "core/src/algs/pminimal.rs: enforce_dominating (unwrap)", "core/src/types.rs: ObjEncoding::enforce_ub"]}
{"id": "C08", "title": "Solution enumeration is complete and free of duplicates", "statement": "With `EnumOptions::Solutions(None)` and the default blocking clause, when `solve` returns `Done` every non-dominated solution of the instance (restricted to instance variables) is listed at the point with its cost, and none is listed twice.", "quantifier": "every well-formed instance in which non-dominated solutions that agree on the instance variables have equal cost, every correct oracle", "why_tests_cant": "the number of solutions is unbounded and depends on every blocking clause added before", "anchors": ["core/src/algs.rs: yield_solutions, default_blocking_clause", "core/src/options.rs: EnumOptions"]}
{"id": "C09", "title": "Enumeration limit per point is respected", "statement": "With `Solutions(Some(k))` or `PMCSs(Some(k))`, k >= 1, each point lists at most k solutions; without enumeration each point lists exactly one.", "quantifier": "every instance, every k, every outcome of `solve`", "why_tests_cant": "off-by-one at the boundary for all k and all interleavings with the other limits", "anchors": ["core/src/algs.rs: yield_solutions"]}
{"id": "C10", "title": "Pareto-MCS enumeration lists every Pareto-MCS once", "statement": "With `EnumOptions::PMCSs(None)`, when `solve` returns `Done`, for each non-dominated solution some listed solution sets exactly the same objective literals, and listed solutions of a point differ pairwise in the objective literals they set; the front is complete.", "quantifier": "every instance (the code only meets it if all objective literals are instance variables: see the finding in DESIGN.md)", "why_tests_cant": "the failing case needs soft clauses that were relaxed with auxiliary variables; existing tests use unit soft clauses", "anchors": ["core/src/algs.rs: block_pareto_mcs, yield_solutions"]}
{"id": "C11", "title": "Limits are respected", "statement": "In one call to `solve` with a limit of n >= 1 on points, solutions, candidates or oracle calls, at most n of these are counted and logged, the call ends with the termination reason of that limit as soon as the n-th one is logged (unless another reason or a logger error comes first), and a limit never fires before that.", "quantifier": "every instance, all combinations of limits, every algorithm, every oracle", "why_tests_cant": "the counters are touched from many loops; each has to be charged exactly once on every path", "anchors": ["core/src/algs.rs: start_solving, log_candidate, log_oracle_call, log_solution, log_non_dominated", "core/src/options.rs: Limits"]}
{"id": "C12", "title": "Interrupts are prompt and sticky", "statement": "Once the interrupter has been used, at most one further oracle call returns before `solve` ends, and if one does then `solve` does not return `Done`; an oracle that was cut off by the interrupt is never mistaken for one that answered; later calls to `solve` end the same way after their first oracle call.", "quantifier": "every time of interruption, every algorithm, every oracle", "why_tests_cant": "asynchronous: the flag may be set between any two steps", "anchors": ["core/src/algs.rs: Interrupter::interrupt, check_termination, solve, solve_assumps"]}
{"id": "C13", "title": "Statistics agree with what was delivered", "statement": "After any call to `solve`: the number of points in the front equals the counter of non-dominated points, the number of listed solutions is at most the counter of solutions and equal to it if the call returned `Done`, the number of logged oracle calls equals the counter, and the number of solve calls is counted. The number of objectives, of objectives that are not constant, and of clauses are those of the instance, however many calls there were.", "quantifier": "every instance, every history of solve calls, every outcome", "why_tests_cant": "requires agreement of counters and data on each of the early exits", "anchors": ["core/src/lib.rs: Stats", "core/src/algs.rs: log_*", "core/src/algs.rs: yield_solutions"]}
{"id": "C14", "title": "Repeated solving stays sound", "statement": "Without enumeration, after any sequence of `solve` calls with any limits on one P-minimal or LowerBounding solver, every point in the front is non-dominated and no point occurs twice.", "quantifier": "every instance, every finite history of solve calls, every way each of them ends", "why_tests_cant": "unbounded histories of calls, each cut at an arbitrary point", "anchors": ["core/src/algs/pminimal.rs: alg_main", "core/src/algs/lowerbounding.rs: alg_main"]}
{"id": "C15", "title": "Resuming after a limit loses nothing", "statement": "If a call to `solve` ended because of a limit, calling `solve` again until it returns `Done` yields the complete Pareto front with no duplicates.", "quantifier": "every instance, every limit, every algorithm (the code only meets it without enumeration, for P-minimal and LowerBounding, when the earlier calls ended with the point or the solution limit: see the findings in DESIGN.md)", "why_tests_cant": "needs a cut at a particular step between blocking a candidate and reporting it", "anchors": ["core/src/algs/pminimal.rs: p_minimization, alg_main", "core/src/algs.rs: yield_solutions", "core/src/algs/bioptsat.rs: bioptsat"]}
{"id": "C16", "title": "The three algorithms agree", "statement": "On the same bi-objective instance, if P-minimal, LowerBounding and BiOptSat all return `Done`, their fronts contain the same cost vectors; for any number of objectives the same holds for the first two.", "quantifier": "every instance, every (possibly different) correct oracle for each of them", "why_tests_cant": "tests compare on sample files only", "anchors": ["core/src/algs/pminimal.rs", "core/src/algs/lowerbounding.rs", "core/src/algs/bioptsat.rs"]}
{"id": "C17", "title": "Core boosting does not change the Pareto front", "statement": "If `core_boost` returns `Done(true)` on a fresh P-minimal or LowerBounding solver then a following `solve` that returns `Done` yields exactly the Pareto front of the original instance, and one that ends otherwise has found only non-dominated points; with any `rebase` and `after` option (without inprocessing). BiOptSat is the subject of C48.", "quantifier": "every instance, every sequence of cores the oracle returns, every option", "why_tests_cant": "the reformulation depends on the cores, and the merged encoding on all of them", "anchors": ["core/src/algs/coreboosting.rs: core_boost, merge", "core/src/algs/coreguided.rs: oll", "core/src/algs/pminimal.rs: core_boost"]}
{"id": "C18", "title": "Core boosting finds the ideal point or infeasibility", "statement": "If `core_boost` returns `Done(true)` the lower bound stored for each objective is the minimum of that objective over all feasible assignments; it returns `Done(false)` only if the clauses are unsatisfiable.", "quantifier": "every instance, every correct oracle, all core-processing options (exhaustion, trimming, minimization)", "why_tests_cant": "depends on all cores found in one unbounded run", "anchors": ["core/src/algs/coreguided.rs: oll, exhaust_core, minimize_core, trim_core", "core/src/algs/coreboosting.rs: Kernel::core_boost"]}
{"id": "C19", "title": "Core boosting is refused after solving", "statement": "`core_boost` on a solver on which `solve` has been called returns an error and leaves clauses, encodings and front as they were.", "quantifier": "every history of calls", "why_tests_cant": "has to hold after every way in which solve may have ended", "anchors": ["core/src/algs/pminimal.rs: core_boost", "core/src/algs/lowerbounding.rs: core_boost", "core/src/algs/bioptsat.rs: core_boost"]}
{"id": "C20", "title": "Objective construction keeps the objective function", "statement": "The objective built from a list of weighted literals and an offset has, under each assignment, the value offset + sum of the weights of true literals, i.e. internal cost times unit weight plus offset; unequal weights give the weighted form, equal ones the unweighted one.", "quantifier": "every list of weighted literals with distinct literals (with repeated literals of different weight the value is lost: see the finding in DESIGN.md), every assignment", "why_tests_cant": "all weights and lists", "anchors": ["core/src/types.rs: Objective::new, offset, unit_weight, iter", "core/src/algs.rs: externalize_internal_costs"]}
{"id": "C21", "title": "Relaxing soft clauses keeps the Pareto front", "statement": "Turning soft clauses into objective literals and hard clauses (with relaxation variables shared between objectives) gives an instance with the same set of non-dominated cost vectors, where the cost of a violated soft clause is its weight, and solutions restricted to the original variables satisfy the original constraints.", "quantifier": "every set of hard constraints and soft clauses, any number of objectives, shared soft clauses, unit and empty soft clauses included", "why_tests_cant": "semantic equivalence over all assignments", "anchors": ["core/src/prepro.rs: process_objective, to_clausal"]}
{"id": "C22", "title": "Reindexing keeps the instance", "statement": "After `reindexing`, solutions of the reindexed instance mapped back with the reindexer satisfy the original clauses and have the same internal costs, and each original solution arises that way; hence the front in internal costs is unchanged.", "quantifier": "every non-empty instance (external costs only survive if the unit weights are one: see the finding in DESIGN.md)", "why_tests_cant": "bijection over all variables and assignments", "anchors": ["core/src/prepro.rs: reindexing", "core/src/types.rs: Reindexer", "src/main.rs: post_solve"]}
{"id": "C23", "title": "The reindexer is a bijection on what it has seen", "statement": "After any sequence of `reindex` calls, the new names are the consecutive variables from 0 on, equal inputs get equal names, different inputs different names, and `reverse(reindex(v)) = v`.", "quantifier": "every sequence of reindex calls (it fails once `forget_from` has been used: see the finding in DESIGN.md)", "why_tests_cant": "all call histories", "anchors": ["core/src/types.rs: Reindexer"]}
{"id": "C24", "title": "Fresh variables are fresh", "statement": "Each variable handed out by the variable manager is different from all handed out before and larger than every original and encoding variable; the maxima stay ordered (original <= encoding < next).", "quantifier": "every history of operations that solvers perform", "why_tests_cant": "all histories", "anchors": ["core/src/types.rs: VarManager"]}
{"id": "C25", "title": "Oracle reset restores the original clauses", "statement": "`reset_oracle` leaves the oracle with exactly the original clauses; it refuses with an error and no change if the clauses were not stored.", "quantifier": "every state a solver can be in", "why_tests_cant": "depends on everything added to the oracle before", "anchors": ["core/src/algs.rs: reset_oracle, Kernel::new"]}
{"id": "C26", "title": "Converting solutions keeps points and costs", "statement": "`convert_solutions` applies the function to each solution in place: the number, order and costs of points and the number of solutions at each are unchanged.", "quantifier": "every front and conversion function", "why_tests_cant": "all fronts", "anchors": ["core/src/types.rs: ParetoFront::convert_solutions, NonDomPoint::convert_solutions"]}
{"id": "C27", "title": "Routine log is well nested", "statement": "In a run that returns `Done`, routine-start and routine-end messages to the logger form a balanced bracket sequence.", "quantifier": "every instance, every algorithm (BiOptSat only meets it for satisfiable instances: see the finding in DESIGN.md)", "why_tests_cant": "every path through every loop", "anchors": ["core/src/algs.rs: log_routine_start, log_routine_end", "core/src/algs/bioptsat.rs: bioptsat", "src/cli.rs: CliLogger::log_routine_end"]}
{"id": "C28", "title": "The OLL lower bound is valid at any time", "statement": "At any time in the core-guided search the offset of the reformulation is a lower bound on the objective over all feasible assignments, and the reformulated objective plus offset equals the objective on feasible assignments. A solution that the search returns is part of an assignment that meets the clauses and the base assumptions; if it returns none, there is none.", "quantifier": "every sequence of cores, every interruption", "why_tests_cant": "invariant over an unbounded run", "anchors": ["core/src/algs/coreguided.rs: oll, OllReformulation, Inactives"]}
{"id": "C29", "title": "Merging the reformulation encodes the same objective", "statement": "The encoding built from a core-guided reformulation, rebased or not, counts the original objective on feasible assignments.", "quantifier": "every reformulation reachable by core boosting, both values of `rebase`", "why_tests_cant": "all shapes of reformulations, with partially consumed totalizer outputs", "anchors": ["core/src/algs/coreboosting.rs: merge, merge_cons"]}
{"id": "C30", "title": "Command line options mean what they say", "statement": "A limit of 0 on the command line is no limit and n >= 1 is n, so no limit handed to the solver is 0; the original clauses are stored whenever core boosting is told to reset or inprocess, so a reset requested on the command line never fails for lack of clauses.", "quantifier": "every combination of options", "why_tests_cant": "combinations", "anchors": ["src/cli.rs: none_if_zero, CoreBoostingArgs::parse, LimitArgs, kernel_opts"]}
{"id": "C31", "title": "File format inference", "statement": "The format inferred from a file name depends only on its extensions: one compression suffix is ignored, and the known extensions map to clausal or pseudo-Boolean input, everything else is an error.", "quantifier": "every path", "why_tests_cant": "all strings", "anchors": ["core/src/prepro.rs: parse, FileFormat::infer"]}
{"id": "C32", "title": "Early exits of the driver", "statement": "The driver calls `solve` exactly if core boosting was not requested or returned `Done(true)`; if it was interrupted or proved infeasibility the front stays empty; errors are passed on.", "quantifier": "every outcome of the two calls", "why_tests_cant": "combinations of outcomes", "anchors": ["src/main.rs: run!, handle_termination"]}
{"id": "C33", "title": "Proof tracer id mapping", "statement": "As long as each clause reaches the SAT solver through the certified collector, the mapping from solver clause ids to proof constraint ids is defined for each clause the solver knows and gives the constraint under which that clause was added or derived; lookups never fail.", "quantifier": "every interleaving of original, derived, deleted and restored clauses", "why_tests_cant": "unbounded interleavings", "anchors": ["cadical-veripb-tracer/src/lib.rs: CadicalTracer, ConstraintMapper, CadicalCertCollector"]}
{"id": "C34", "title": "Derived proof steps are implied", "statement": "The derivation the tracer writes for a learned clause (adding the antecedents in reverse order, saturating after each) yields a constraint implied by the antecedents.", "quantifier": "every list of antecedent clauses and every assignment", "why_tests_cant": "all derivations", "anchors": ["cadical-veripb-tracer/src/lib.rs: write_derived"]}
{"id": "C35", "title": "The proof's order is Pareto dominance", "statement": "The order constraints emitted for the proof hold between two assignments exactly if the first weakly dominates the second in all objectives, and the transitivity derivation that is emitted is valid.", "quantifier": "every list of objectives, every pair of assignments", "why_tests_cant": "all weights and assignments", "anchors": ["core/src/algs/proofs.rs: objectives_as_order"]}
{"id": "C36", "title": "Objective-bound reification in proofs", "statement": "The two constraints defining the reification variable of an objective bound hold exactly if the variable is true iff the objective is at least the bound.", "quantifier": "every objective, bound and assignment", "why_tests_cant": "all weights", "anchors": ["core/src/algs/proofs.rs: get_obj_bound_constraint"]}
{"id": "C37", "title": "The P-minimal cut in the proof is sound", "statement": "Under the emitted definitions the cut clause follows from the dominance-mapping and the exclusion constraint, and it removes only assignments weakly dominated by the given solution.", "quantifier": "every cost vector, solution and assignment", "why_tests_cant": "all weights and assignments", "anchors": ["core/src/algs/proofs.rs: certify_pmin_cut"]}
{"id": "C38", "title": "Core reformulation arithmetic in the proof", "statement": "Without core exhaustion, the cutting-planes derivation emitted for a core and the next totalizer output gives (sum of core literals) - (sum of outputs so far) >= 1, at each extension step; all lines of the search are accepted, and the last line is exactly the equality between the objective and its reformulation (inactive literals, outputs not in use, offset) plus a nonnegative rest, so the proof contains the lower bound. With core exhaustion the emitted derivation adds the wrong half of the definition, and what it derives does not imply the constraint of the core.", "quantifier": "every objective, every sequence of cores, every core length and bound, every sequence of other lines in between", "why_tests_cant": "all core sizes and bounds", "anchors": ["core/src/algs/coreguided.rs: oll, exhaust_core"]}
{"id": "C39", "title": "Reification of several assumptions in the proof", "statement": "Adding the two halves of two output definitions, dividing and saturating gives the implication between the outputs for every divisor the code may use. The lines written for a literal that stands for several assumptions are accepted by a proof checker, and the solver gets the clauses that the literal implies each assumption.", "quantifier": "every objective and pair of bounds", "why_tests_cant": "all weights and bounds", "anchors": ["core/src/algs/proofs.rs: certify_assump_reification", "core/src/algs/bioptsat.rs: bioptsat"]}
{"id": "C40", "title": "The fence only moves outwards and loses nothing", "statement": "The bounds of the LowerBounding fence never decrease, each unsatisfiable oracle call strictly increases at least one, and no bound is raised beyond the next attainable value.", "quantifier": "every sequence of cores", "why_tests_cant": "all core choices", "anchors": ["core/src/algs/lowerbounding.rs: update_fence"]}
{"id": "C41", "title": "Blocking clauses block what they say", "statement": "The default blocking clause is violated exactly by assignments that agree with the solution on its variables; the Pareto-MCS clause exactly by those that set all the objective literals set in the solution, it is never tautological.", "quantifier": "every solution and assignment", "why_tests_cant": "all assignments", "anchors": ["core/src/algs.rs: default_blocking_clause, block_pareto_mcs"]}
{"id": "C42", "title": "Linear search finds the optimum", "statement": "`linsu` returns an assignment that is feasible under the base assumptions and whose objective value is minimal among these (or at most the given lower bound), and `None` only if there is none.", "quantifier": "every objective, base assumptions, upper and lower bound that are valid, every correct oracle", "why_tests_cant": "depends on all oracle answers", "anchors": ["core/src/algs.rs: linsu"]}
{"id": "C43", "title": "Minimization only improves", "statement": "Within one minimization each logged candidate dominates the one before, so the point finally reported weakly dominates the starting candidate.", "quantifier": "every instance and oracle", "why_tests_cant": "all runs", "anchors": ["core/src/algs/pminimal.rs: p_minimization"]}
{"id": "C44", "title": "Dominance check of the front", "statement": "With the feature check-non-dominance and debug assertions, adding points to the front panics exactly if one of them has the costs of a point that was in the front before, dominates one or is dominated by one; the comparison flags a pair of cost vectors exactly if one dominates the other and they differ. The check never fails in a call to solve on a fresh or core boosted solver, nor in any sequence of calls without enumeration on a P-minimal or LowerBounding solver.", "quantifier": "every pair of vectors of equal length, every front and list of points, every run with any limits and any correct SAT solver", "why_tests_cant": "all vectors and all runs; the feature is off by default, so no test runs the check", "anchors": ["core/src/types.rs: ParetoFront::extend (check_dominated)", "core/src/algs.rs: yield_solutions"]}
{"id": "C45", "title": "Routine log output is balanced", "statement": "The command line logger prints the end of a routine exactly if it printed its start, whatever the depth setting.", "quantifier": "every well-nested sequence of routines and every depth limit", "why_tests_cant": "all sequences", "anchors": ["src/cli.rs: CliLogger::log_routine_start, log_routine_end"]}
{"id": "C46", "title": "Core post-processing keeps cores valid", "statement": "Minimizing, trimming and filtering base assumptions from a core leave a clause that is implied by the clauses of the instance (together with the base assumptions) and contained in the original core.", "quantifier": "every core, every sequence of oracle answers including exhausted conflict limits", "why_tests_cant": "all oracle answers", "anchors": ["core/src/algs/coreguided.rs: minimize_core, trim_core, exhaust_core"]}
{"id": "C47", "title": "Core boosting ends and does not panic", "statement": "On a feasible instance `core_boost` of a fresh solver ends after finitely many oracle calls without a panic; it returns `Done(false)` only for infeasible instances, and an error only if the logger fails or the oracle is to be reset without stored clauses.", "quantifier": "every feasible instance, every sequence of cores, every option (infeasible instances with core minimization are a counterexample)", "why_tests_cant": "termination and absence of overflow hold for all core sequences or not at all", "anchors": ["core/src/algs/coreboosting.rs: core_boost", "core/src/algs/coreguided.rs: oll"]}
{"id": "C48", "title": "BiOptSat after core boosting", "statement": "If `core_boost` returns `Done(true)` on a fresh BiOptSat solver then a following `solve` ends without a panic, and if it returns `Done` it has found exactly the Pareto front of the original instance.", "quantifier": "every bi-objective instance, every sequence of oracle answers", "why_tests_cant": "it goes wrong only if core boosting turns an objective into a constant", "anchors": ["core/src/algs/bioptsat.rs: core_boost, alg_main, linsu", "core/src/types.rs: ObjEncoding"]}
{"id": "C49", "title": "Instances built from the result of MaxPre", "statement": "The instance that `max_pre` builds has the clauses MaxPre returned, and the cost of an assignment in each objective is the offset plus the weights of the violated soft clauses; it is well-formed (all variables managed) exactly if no objective variable is larger than all variables in clauses.", "quantifier": "every preprocessed clause set and every list of objectives with one-literal soft clauses", "why_tests_cant": "holds over all assignments; the well-formedness condition only fails on unusual outputs of the preprocessor", "anchors": ["core/src/prepro.rs: max_pre"]}
{"id": "C50", "title": "Higher verbosity only adds output", "statement": "Raising the verbosity or adding a logging option never removes or reorders lines that the command line logger printed before; it only adds lines.", "quantifier": "every sequence of log messages, every pair of option sets, every algorithm", "why_tests_cant": "all combinations of options and message sequences", "anchors": ["src/cli.rs: From<LogArgs> for LoggerConfig, impl WriteSolverLog for CliLogger"]}
{"id": "C51", "title": "The subproofs given for the P-minimal cut close their goals", "statement": "Each subproof written with the dominance mapping of a P-minimal cut derives a contradiction from the negation of the mapping and of the order constraint of its objective, and the subproof written with the deletion of the auxiliary constraints derives a contradiction from the negated exclusion and the cut.", "quantifier": "every list of objectives (with or without core boosting, any unit weight), encoding, cost vector and solution", "why_tests_cant": "the derivations are arithmetic over all weights, unit weights and lower bounds", "anchors": ["core/src/algs/proofs.rs: certify_pmin_cut"]}
{"id": "C52", "title": "Blocking clauses of P-minimization are derived in the proof", "statement": "When proof logging is on, each blocking clause that P-minimization (and lower-bounding) gives to the solver is the last line of a derivation that a checker accepts, the solver gets it with the identifier of that line, and it only excludes assignments that the solution found weakly dominates.", "quantifier": "every list of objectives and encodings, every cost vector and solution, every state of the proof so far", "why_tests_cant": "the derivation chains definitions, reifications and the cut over arbitrary numbers of objectives and assumptions; a wrong hint only shows when a checker replays exactly that case", "anchors": ["core/src/algs/pminimal.rs: dominated_block_clause, tmp_block_dominated, p_minimization", "core/src/algs/lowerbounding.rs: 508-548", "core/src/algs/proofs.rs: certify_pmin_cut, certify_assump_reification"]}
{"id": "C53", "title": "Lower bounds on an objective are derived in the proof", "statement": "When the solver has shown that an objective cannot be below a cost under some base assumptions, the lines written for this are accepted by a checker, no constraint of the proof is lost, and the constraint with the returned identifier says that a base assumption is false or the objective is at least the cost: with an empty buffer by the output for the cost, with a buffer by a proof-only variable that is true exactly if the objective is at least the cost.", "quantifier": "every objective, encoding, cost, list of base assumptions, every core with base assumptions first, every state of the proof so far", "why_tests_cant": "the number of implications depends on which outputs are in the core, and a wrong divisor, hint or deletion only shows when a checker replays exactly that core", "anchors": ["core/src/algs/proofs.rs: linsu_certify_lower_bound", "core/src/algs/bioptsat.rs: linsu, linsu_yield"]}
{"id": "C54", "title": "BiOptSat's cuts are derived in the proof", "statement": "For each point that BiOptSat finds with proof logging, the lines it writes are accepted by a checker and lose no constraint; each literal of the bound on the decreasing objective is given to the solver with a constraint that says it; what is kept for the next point gives its lower bound on the increasing objective; and for the last point the proof ends with a contradiction.", "quantifier": "every pair of objectives and encodings, every pair of costs and solution, every list of assumptions, every state of the proof so far", "why_tests_cant": "which lines are written depends on the number of outputs, on buffers of the encodings and on which point came before; a wrong identifier only shows when a checker replays exactly that run", "anchors": ["core/src/algs/bioptsat.rs: bioptsat 436-497, 501-763", "core/src/algs/proofs.rs: certify_pmin_cut, get_obj_bound_constraint"]}
{"id": "C55", "title": "Solution tightening keeps a solution and worsens nothing", "statement": "After the oracle has found a solution, with or without solution tightening, the solution the algorithms go on with is feasible, the costs they go on with are in no objective below the values of this solution and in no objective above those of the solution the oracle found, and the cost of the objective evaluated last is exact. Tightening never panics and fails only if the logger does.", "quantifier": "every instance with positive weights and without repeated literals, every state after any number of linear searches, every assumptions, every correct oracle and every order in which literals can be flipped", "why_tests_cant": "which literals can be flipped depends on the internal state of the SAT solver, and a wrong update only shows if flips in one objective change another one", "anchors": ["core/src/algs.rs: get_cost_with_heuristic_improvements (sol-tightening), get_solution_and_internal_costs", "core/src/algs/pminimal.rs: 272-283, 552-563", "core/src/algs/bioptsat.rs: 386-392"]}
{"id": "C56", "title": "MaxPre is run on an instance with the same Pareto front", "statement": "In core boosting with inprocessing, the hard clauses and the soft clauses of each objective that MaxPre gets, with the lower bounds found as constants, have the Pareto front of the instance: each model is feasible with costs no better than by the soft clauses, and each feasible assignment extends to a model with exactly its costs. So two libraries that agree on such instances cannot be told apart.", "quantifier": "every instance without repeated literals, every correct oracle with distinct core literals, every interrupt and logger failure, every preprocessor, all three algorithms", "why_tests_cant": "which totalizers and outputs core boosting leaves depends on the cores the solver returns; a missing clause of a totalizer only shows if the preprocessor makes use of it", "anchors": ["core/src/algs/coreboosting.rs: inprocess 255-330", "core/src/algs/pminimal.rs: 353-374", "core/src/algs/lowerbounding.rs: 342-363", "core/src/algs/bioptsat.rs: 282-305"]}
{"id": "C57", "title": "The front is exact after inprocessing", "statement": "If core boosting with inprocessing of a fresh solver returns Done(true), a following call to solve does not panic, and if it returns Done, the front is exactly the Pareto front of the instance; if core boosting returns Done(false), there is no solution.", "quantifier": "every instance without repeated literals, every correct oracle with distinct core literals, every preprocessor that keeps the attainable costs, every interrupt and logger failure, all three algorithms", "why_tests_cant": "what is wrong depends on what the preprocessor removes and on which values the solver then gives to removed variables", "anchors": ["core/src/algs/coreboosting.rs: inprocess 331-430", "core/src/algs.rs: get_cost_with_heuristic_improvements 594-609, yield_solutions", "core/src/algs/pminimal.rs: 353-374", "core/src/algs/lowerbounding.rs: 342-363", "core/src/algs/bioptsat.rs: 282-305"]}
{"id": "C58", "title": "With MaxPre preprocessing the program prints the Pareto front of the parsed instance", "statement": "With --preprocessing, with or without reindexing and core boosting, each printed point is a non-dominated cost vector of the instance that was parsed and is printed once, each printed solution satisfies the parsed constraints however its variables without value are set and has the printed costs, and if the program was not interrupted all non-dominated cost vectors are printed. If nothing fails the program prints and does not panic.", "quantifier": "every parsed instance, every preprocessor that keeps the attainable costs and reconstructs solutions and whose result has no objective variable above those of its clauses, every correct oracle, every interrupt, all three algorithms", "why_tests_cant": "what is printed depends on what the preprocessor removes and on the order in which costs are shifted and solutions are converted back by the reindexer and by MaxPre; no test runs all of these together", "anchors": ["src/main.rs: sub_main 133-203, post_solve 266-319", "core/src/prepro.rs: max_pre 142-202"]}
{"id": "C59", "title": "With a proof, each input clause has its own constraint under the id the checker gives it", "statement": "If a proof is written, the parsed instance is converted to the same clauses, objectives and variables as without. Setting up the solver does not panic, and each clause of the solver then has its own constraint in the proof that says the same, under the id that the checker gives it. Each line is correct with respect to the dumped file, the program counts the constraints of the file as the checker does, and the file starts with the constraints of the instance. Reindexing with a proof is refused.", "quantifier": "every parsed instance, every certified encoder that does what GoodCertEncoding says, debug and release builds", "why_tests_cant": "an id that is off by one is only rejected by the checker if the constraint with the wrong id does not happen to say the same; equalities, which are two constraints for the checker, are not in the tests with proofs", "anchors": ["core/src/prepro.rs: Collector 204-229, to_clausal 231-303", "core/src/algs/proofs.rs: init_proof 51-106, 127-146, 869-883", "src/main.rs: 143-173"]}
{"id": "C60", "title": "Core boosting does the same with a proof as without", "statement": "If a proof is written, core boosting ends as it does without, and in the same state of the solver, for all options that the command line accepts together with a proof.", "quantifier": "every solver state, every oracle, every interrupt and logger failure, all options of core boosting, debug and release builds", "why_tests_cant": "no test combines proof logging with resetting the oracle or with inprocessing, and the assertion only fails in debug builds", "anchors": ["core/src/algs/pminimal.rs: core_boost 353-407", "core/src/algs/lowerbounding.rs: core_boost 342-396", "core/src/algs/bioptsat.rs: core_boost 282-342", "core/src/algs/coreboosting.rs: inprocess 255", "src/cli.rs: 155-195", "src/main.rs: 143-166"]}
{"id": "C61", "title": "A whole proof of P-minimization is accepted and its solutions cover everything", "statement": "A proof that is written while solving with P-minimization without enumeration is accepted by a checker from the first to the last line, whatever order lines of the SAT solver, extensions of encodings and blocked solutions come in. If the empty clause is derived in the end, each assignment that satisfies the input is weakly dominated by the costs of a blocked solution, the blocked costs are those of solutions, and if none of them weakly dominates another one they are the Pareto front. The checker can conclude from the lines alone that each assignment is weakly dominated by a logged solution.", "quantifier": "every number of rounds, every number of objectives, every encoding and SAT solver that do what GrowOk, RunAllowed and SolverOk say; single assumptions while literals are missing in the encoding are excluded (see C52)", "why_tests_cant": "a later solution has to satisfy all constraints written for earlier ones, among them cuts over variables that only the proof has; a test checks the proof of one instance", "anchors": ["core/src/algs/pminimal.rs: 447-482, dominated_block_clause 616-663", "core/src/algs/proofs.rs: certify_pmin_cut 182-421, certify_assump_reification 429-560, get_obj_bound_constraint 718-783"]}
{"id": "C62", "title": "Limits, interrupts and a logger only cut a run short", "statement": "A call to solve with limits, with interrupts or with a logger that fails delivers the first points of the front that the same solver delivers without any of them, with the same solutions in the same order; only the last point may have fewer solutions. If the call is not cut short then result, front and statistics are the same. A logger does not change what is found. What the command line program prints with limits is the first part of what it prints without, and the same if no warning is printed.", "quantifier": "every algorithm, every solver state, all options and limits, every SAT solver (also one with wrong answers), every time at which the flag is set or the logger fails, debug and release builds; with core boosting and reindexing for the program", "why_tests_cant": "a test compares the costs in one order for a few limits; a limit, flag or logger call that changes later decisions changes the order or the solutions, but not the set of costs of a complete run", "anchors": ["core/src/algs.rs: 325-336, 385-506, 668-754, 954-981", "core/src/algs/pminimal.rs: 261-349, 416-567", "core/src/algs/lowerbounding.rs: 267-340, 422-551", "core/src/algs/bioptsat.rs: 262-280, 360-777", "core/src/algs/coreboosting.rs: 136-235", "src/main.rs: 52-63, 133-203"]}
{"id": "C63", "title": "Fences and ideal points in the log are true", "statement": "When LowerBounding logs a new fence, every feasible assignment within the bounds that were valid until then is weakly dominated by a point that was reported before, so a run that is cut short has covered everything below all fences in its log but the last. The ideal point that core boosting logs has the least value of each objective over the feasible assignments, each of them attained.", "quantifier": "every instance, all options and limits, however the run ends, every correct SAT solver, fresh and core boosted solvers", "why_tests_cant": "the messages are not compared with anything in the tests; a fence that is logged too early or too high is only wrong for the solutions in between, and a wrong ideal point does not change the front", "anchors": ["core/src/algs/lowerbounding.rs: 267-340, 398-551", "core/src/algs/coreboosting.rs: 136-225", "core/src/lib.rs: 110-130"]}
{"id": "C64", "title": "Candidates and heuristic improvements in the log are true", "statement": "Each candidate that is logged has one cost per objective, and there is a feasible assignment that is at least as good; without solution tightening, or if no literal is in two objectives, the candidate is the cost vector of a feasible assignment. Each heuristic improvement that is logged is real: both costs are those of feasible assignments, and the one after is at least as good in all objectives.", "quantifier": "every algorithm, every sequence of calls with any limits (also ones that end early or panic), attached and detached loggers, every correct SAT solver, fresh and core boosted solvers", "why_tests_cant": "the messages are not compared with anything in the tests; costs that are out of date or of another objective do not change the front", "anchors": ["core/src/algs.rs: 385-412, 540-600, 790-917", "core/src/algs/pminimal.rs: 261-349, 416-567", "core/src/lib.rs: 110-130"]}
{"id": "C65", "title": "Core messages in the log account for the ideal point", "statement": "For each objective that core-guided search is run on, adding up the weights of the cores in the log and, for each exhausted core, its weight times one less than the number it was exhausted up to, gives the least value of the objective over the feasible assignments once core boosting has returned. If core boosting ends earlier, the sums are lower bounds. Each core that is logged has positive weight, is not empty and not longer after minimization and trimming than before; exhaustion is only logged if it raised the bound.", "quantifier": "every algorithm, every feasible instance without repeated literals in an objective, every correct SAT solver whose cores have no repeated literals, all options, every point at which core boosting may end", "why_tests_cant": "the messages are not compared with anything in the tests; a wrong weight or length in a message does not change the front", "anchors": ["core/src/algs/coreguided.rs: 379-414, 440-470", "core/src/algs/coreboosting.rs: 136-225", "core/src/lib.rs: 129-132"]}
{"id": "C66", "title": "Core boosting that was cut short leaves the solver usable", "statement": "If `core_boost` ends early because of the interrupt flag or an error of the logger, a following call to `solve` behaves as for a fresh solver: `Done` comes with exactly the Pareto front, however it ends all points are non-dominated and all solutions attain their costs, and there is no panic and no error that does not come from the logger.", "quantifier": "every algorithm, every instance, every correct SAT solver, every point at which core boosting may end, all limits", "why_tests_cant": "the solver can be left in a different state at each of the early exits of core boosting, in the middle of reformulating an objective or of replacing the encodings", "anchors": ["core/src/algs/coreboosting.rs: 60-225", "core/src/algs/coreguided.rs: 150-725"]}
{"id": "C67", "title": "The printed Pareto front can be read back", "statement": "From the output of the program, whatever messages of the logger and statistics come before and after the front, a reader recovers for each point its costs (with sign) and number of solutions, and with `--print-solutions` the text of each solution with its point; two fronts with the same output are the same. What is read are non-dominated points of the parsed instance, none twice, and all of them if there was no warning. The points can also be read from the messages of the logger.", "quantifier": "all fronts of any size, all costs, all solutions, all messages, all options", "why_tests_cant": "a test reads the output for some fronts; whether texts are ambiguous depends on all vectors, signs and solutions, and on everything else that is printed", "anchors": ["src/cli.rs: 820-859", "src/cli.rs: 968-1037", "src/cli.rs: 1054-1307", "src/cli.rs: 1336-1361"]}
{"id": "C68", "title": "Core boosting may be repeated", "statement": "`core_boost` may be called any number of times before `solve`, with any options, also again after a call that was cut short. Each call that finds the instance satisfiable leaves the minima of the objectives as lower bounds, `Done(false)` is only returned if there is no solution, and there is no panic if there is one. A following `solve` that returns `Done` yields exactly the Pareto front; however it ends, points are non-dominated, solutions attain their costs, there is no panic, and the number of iterations is bounded as for a fresh solver.", "quantifier": "all sequences of calls of any length, all options of each call, all points at which calls are cut short, all instances, all three algorithms", "why_tests_cant": "a test calls core boosting once or twice; that the encodings and bounds left behind by any number of calls still fit together is an invariant over all sequences", "anchors": ["core/src/algs/coreboosting.rs: 60-225", "core/src/algs/coreguided.rs: 150-725", "core/src/algs/pminimal.rs: core_boost", "core/src/algs/lowerbounding.rs: core_boost", "core/src/algs/bioptsat.rs: core_boost"]}
{"id": "C69", "title": "The log of a run that is cut short is the first part of the complete log", "statement": "Take a call of solve with limits, interrupts or a logger that fails at some point, and the call of the same solver in the same state without. If the second call ends, then the messages that the logger receives in the first call are the first ones of those that it receives in the second one: no oracle call, candidate, solution or fence is reported that would not be reported in the complete run, none is left out and the order is the same. There are two exceptions, both at the end of the log. If the limit on solutions is reached or the message about a solution fails, a non-dominated point is reported with the solutions found so far; the next non-dominated point in the complete log has the same costs and those solutions first. If the message about a non-dominated point itself fails, it is missing before the last message. If the call is not cut short, then the logs are the same. The same holds for the command line driver with core boosting.", "quantifier": "for all three algorithms, all instances, options, limits, times of interruption, answers of the SAT solver, encodings and states in which solve is called", "why_tests_cant": "needs all times at which a run can be cut and relates two runs of unbounded length message by message", "anchors": ["core/src/algs.rs: 384-500, 668-746, 965-972", "core/src/algs/pminimal.rs: alg_main", "core/src/algs/lowerbounding.rs: alg_main", "core/src/algs/bioptsat.rs: alg_main", "core/src/lib.rs: WriteSolverLog", "src/main.rs: run!"]}
{"id": "C70", "title": "Errors of the logger are reported", "statement": "If a message to the attached logger fails during a call of `solve` or `core_boost`, then the call returns an error. In other words: a call that returns `Done` or any termination reason has the same result, front, statistics and log as with a logger that does not fail. The command line program that prints a front, with or without a warning, prints what it prints if no message fails.", "quantifier": "for all three algorithms, all instances, options, limits, times of interruption, times at which messages fail, answers of the SAT solver, encodings and states in which solve is called", "why_tests_cant": "needs all points at which a message can fail, in runs of unbounded length, and compares each with the run in which it does not fail", "anchors": ["core/src/algs.rs: 384-500, 668-746", "core/src/algs/pminimal.rs: alg_main", "core/src/algs/lowerbounding.rs: alg_main", "core/src/algs/bioptsat.rs: alg_main", "core/src/algs/coreboosting.rs: core_boost", "core/src/termination.rs: 136-184", "src/main.rs: run!"]}
{"id": "C71", "title": "P-minimal and lower-bounding do not consider a candidate twice", "statement": "In one call of `solve` of P-minimal or lower-bounding, no candidate in the log is weakly dominated by an earlier candidate of the same call. Hence no cost vector is a candidate twice, and the number of candidates in a call is at most the number of vectors of internal costs.", "quantifier": "for P-minimal and lower-bounding, all instances, options, enumeration modes, limits, times of interruption, answers of the SAT solver, with and without solution tightening, after any sequence of earlier calls of solve and of attaching or detaching loggers, and after core boosting", "why_tests_cant": "is about all pairs of candidates in runs of unbounded length for all answers of the SAT solver; it depends on the blocking clauses being active in all later queries", "anchors": ["core/src/algs/pminimal.rs: alg_main, p_minimization, dominated_block_clause, tmp_block_dominated", "core/src/algs/lowerbounding.rs: harvest, alg_main", "core/src/algs.rs: log_candidate, get_solution_and_internal_costs"]}
{"id": "C72", "title": "Each oracle call of a run is accounted for", "statement": "In one call of `solve` with a logger, P-minimal logs at most as many oracle calls as candidates, Pareto points and solutions plus one; without solution enumeration, solutions do not count, and a call that returns Done logs exactly as many oracle calls as candidates and points plus one. For lower-bounding the same holds with one more for each move of the fence and two more for each harvest. BiOptSat logs at most as many as candidates, three times the points and, with enumeration, solutions, plus one if it is Done and plus three in general. With C71, P-minimal without enumeration makes at most as many oracle calls as there are vectors of internal costs, plus the number of points, plus one.", "quantifier": "for all states of a solver with a logger, options, enumeration modes, limits, times of interruption, failures of the logger, answers of the SAT solver and of the encodings; the last bound for all instances and correct SAT solvers", "why_tests_cant": "relates counts in runs of unbounded length, also runs that stop at any point, and depends on each branch of each loop", "anchors": ["core/src/algs/pminimal.rs: alg_main, p_minimization", "core/src/algs/lowerbounding.rs: alg_main, harvest, update_fence", "core/src/algs/bioptsat.rs: bioptsat", "core/src/algs.rs: solve_assumps, log_oracle_call, yield_solutions, linsu, linsu_yield"]}
{"id": "C73", "title": "BiOptSat finds the Pareto points from left to right without leaving any out", "statement": "However a call of `solve` of BiOptSat on a fresh solver ends, the points of the front are listed in strictly increasing order of the first objective and strictly decreasing order of the second, and each point of the Pareto front that is not in the list has a larger first and a smaller second cost than all points in the list. In particular, the first point is the lexicographic optimum, for example when the limit on points is 1. The same holds after core boosting if no objective is flat (see C48).", "quantifier": "for all well-formed instances with two objectives, options, enumeration modes, limits, times of interruption, correct SAT solvers and lawful encodings", "why_tests_cant": "the order depends on the bounds of both linear searches and on the blocking in each iteration, for runs of unbounded length that stop at any point", "anchors": ["core/src/algs/bioptsat.rs: bioptsat", "core/src/algs.rs: linsu, linsu_yield, yield_solutions"]}
{"id": "C74", "title": "The points that BiOptSat lists only depend on the instance", "statement": "Of two calls of `solve` of BiOptSat on fresh solvers for the same instance, the costs listed by one are an initial part of the costs listed by the other, in the same order, whatever SAT solvers, encodings, options, enumeration modes and limits are used and however the calls end. If one of them returns Done, the other lists an initial part of its points; if both do, the lists are equal. The same holds if one of the calls follows core boosting and no objective is flat (see C48). For P-minimal and lower-bounding this is not so.", "quantifier": "for all well-formed instances with two objectives and all pairs of correct SAT solvers, lawful encodings, options, limits and times of interruption", "why_tests_cant": "relates all pairs of runs with different SAT solvers and encodings", "anchors": ["core/src/algs/bioptsat.rs: bioptsat", "core/src/algs.rs: linsu, linsu_yield, yield_solutions"]}
{"id": "C75", "title": "What the program prints for BiOptSat is sorted, without gaps, and only depends on the instance", "statement": "With `bi-opt-sat`, whatever other options are given and however the run ends, if a front is printed, its points are in strictly increasing order of the first objective and strictly decreasing order of the second, and each point of the Pareto front of the parsed instance that is not printed comes after all printed ones. Of two runs with different SAT solvers, encodings or other options, one prints an initial part of the points that the other prints, and if neither prints a warning about early termination, they print the same points in the same order. This also holds with preprocessing by MaxPre, for the order and for a run with MaxPre compared to one without.", "quantifier": "for all parsed instances with two objectives (with core boosting: none of them flat, see C48; with reindexing: unit weights one, see C32), all pairs of options, correct SAT solvers, lawful encodings and times of interruption", "why_tests_cant": "relates all pairs of runs of the program, from the parsed instance through preprocessing, core boosting, reindexing and the algorithm to the printed front", "anchors": ["src/main.rs: sub_main, run!, post_solve", "core/src/prepro.rs: to_clausal, reindexing", "core/src/algs/bioptsat.rs: bioptsat", "core/src/algs/coreboosting.rs: core_boost"]}
{"id": "C76", "title": "The printed front answers what a user asks about the instance", "statement": "If the program prints a front without a warning about early termination, then for each assignment that satisfies the constraints of the parsed instance a printed point is at least as good in every objective, nothing is printed if and only if no assignment satisfies the constraints, and the best value of each weighted sum of the objectives (in particular of each single objective) is attained by a printed solution. With `bi-opt-sat`, however the run ends, the first printed point is the lexicographic optimum. Both also hold with preprocessing by MaxPre.", "quantifier": "for all parsed instances under the assumptions of C32 (with preprocessing: C58), all options, correct SAT solvers, lawful encodings, weights and assignments", "why_tests_cant": "compares the printed points with all assignments of all instances and with all weights; tests only compare with known fronts", "anchors": ["src/main.rs: sub_main, run!, post_solve", "core/src/prepro.rs: to_clausal, reindexing", "core/src/algs/bioptsat.rs: bioptsat", "core/src/algs/pminimal.rs: p_minimal", "core/src/algs/lowerbounding.rs: lower_bounding"]}
