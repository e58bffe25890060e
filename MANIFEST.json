{
 "claims": [
  {
   "property": "C20",
   "status": "proved",
   "theorems": [
    "Scuttle.objective_new_value",
    "Scuttle.objective_new_form",
    "Scuttle.objective_new_duplicate_counterexample"
   ],
   "note": "Distinct literals or equal weights; for repeated literals with different weights the counterexample shows that the value is lost."
  },
  {
   "property": "C23",
   "status": "proved",
   "theorems": [
    "Scuttle.reindexer_bijection",
    "Scuttle.reindexer_forget_keeps",
    "Scuttle.reindexer_forget_from_counterexample",
    "Scuttle.reindexer_new_var_counterexample",
    "Scuttle.reindexer_combine_keeps",
    "Scuttle.reindexer_combine_clash"
   ],
   "note": "Histories of reindex calls; the counterexamples show that the bijection is lost after forget_from, new_var or combine."
  },
  {
   "property": "C24",
   "status": "proved",
   "theorems": [
    "Scuttle.varManager_fresh",
    "Scuttle.varManager_forget_from"
   ],
   "note": ""
  },
  {
   "property": "C26",
   "status": "proved",
   "theorems": [
    "Scuttle.convertSolutions_spec",
    "Scuttle.convertSolutions_shape",
    "Scuttle.convertSolutions_map"
   ],
   "note": ""
  },
  {
   "property": "C41",
   "status": "proved",
   "theorems": [
    "Scuttle.defaultBlockingClause_spec",
    "Scuttle.blockParetoMcs_spec"
   ],
   "note": ""
  },
  {
   "property": "C44",
   "status": "proved",
   "theorems": [
    "Scuttle.checkDominated_iff",
    "Scuttle.extendChecked_spec",
    "Scuttle.solve_check_passes",
    "Scuttle.calls_check_passes",
    "Scuttle.boosted_check_passes",
    "Scuttle.resume_check_fails_counterexample"
   ],
   "note": "Points that are added at once are not compared with each other; the solvers add them one at a time. Resuming BiOptSat after the limit on points makes the check fail (counterexample, same cause as in C15)."
  },
  {
   "property": "C01",
   "status": "proved",
   "theorems": [
    "Scuttle.pminimal_exact_front"
   ],
   "note": ""
  },
  {
   "property": "C02",
   "status": "proved",
   "theorems": [
    "Scuttle.lowerBounding_exact_front"
   ],
   "note": ""
  },
  {
   "property": "C03",
   "status": "proved",
   "theorems": [
    "Scuttle.biOptSat_exact_front",
    "Scuttle.cubeImplCube_holds"
   ],
   "note": ""
  },
  {
   "property": "C04",
   "status": "proved",
   "theorems": [
    "Scuttle.front_sound",
    "Scuttle.default_goodBlocking"
   ],
   "note": "Enumeration with the default blocking clause needs that the original variables determine the costs of Pareto-optimal assignments."
  },
  {
   "property": "C05",
   "status": "proved",
   "theorems": [
    "Scuttle.solutions_attain"
   ],
   "note": ""
  },
  {
   "property": "C06",
   "status": "proved",
   "theorems": [
    "Scuttle.solve_terminates",
    "Scuttle.solve_done"
   ],
   "note": ""
  },
  {
   "property": "C07",
   "status": "proved",
   "theorems": [
    "Scuttle.solve_no_panic",
    "Scuttle.new_no_panic"
   ],
   "note": ""
  },
  {
   "property": "C08",
   "status": "proved",
   "theorems": [
    "Scuttle.enumeration_complete"
   ],
   "note": ""
  },
  {
   "property": "C09",
   "status": "proved",
   "theorems": [
    "Scuttle.enumeration_limit"
   ],
   "note": ""
  },
  {
   "property": "C10",
   "status": "partial",
   "theorems": [
    "Scuttle.pmcs_enumeration_partial",
    "Scuttle.pmcs_enumeration_counterexample"
   ],
   "note": "Proved if all objective literals are original variables; the counterexample shows that the front is incomplete otherwise."
  },
  {
   "property": "C16",
   "status": "proved",
   "theorems": [
    "Scuttle.algorithms_agree"
   ],
   "note": ""
  },
  {
   "property": "C14",
   "status": "proved",
   "theorems": [
    "Scuttle.repeated_solve_sound"
   ],
   "note": ""
  },
  {
   "property": "C15",
   "status": "partial",
   "theorems": [
    "Scuttle.resume_exact_front_partial",
    "Scuttle.resume_loses_point_counterexample",
    "Scuttle.resume_bioptsat_duplicate_counterexample",
    "Scuttle.resume_dominated_counterexample",
    "Scuttle.resume_enumeration_duplicate_counterexample"
   ],
   "note": "The code violates the full claim (four counterexamples); proved for P-minimal and LowerBounding without enumeration if the earlier calls ended with Done, the point limit or the solution limit."
  },
  {
   "property": "C11",
   "status": "proved",
   "theorems": [
    "Scuttle.limits_respected",
    "Scuttle.limit_ends_at_once",
    "Scuttle.limit_zero_counterexample"
   ],
   "note": "Positive limits; the counterexample shows what a limit of zero does."
  },
  {
   "property": "C12",
   "status": "proved",
   "theorems": [
    "Scuttle.interrupt_prompt",
    "Scuttle.interrupt_sticky"
   ],
   "note": "That an interrupted oracle is never taken for one that answered is part of solve_no_panic: it would end in a panic or an error."
  },
  {
   "property": "C13",
   "status": "proved",
   "theorems": [
    "Scuttle.stats_agree",
    "Scuttle.stats_agree_history",
    "Scuttle.log_agrees",
    "Scuttle.stats_instance"
   ],
   "note": "Nothing is claimed about calls that panic; if the logger fails the counter may be ahead of the log by one."
  },
  {
   "property": "C27",
   "status": "partial",
   "theorems": [
    "Scuttle.routines_nested",
    "Scuttle.routines_nested_bioptsat_partial",
    "Scuttle.routines_nested_counterexample"
   ],
   "note": "Full claim for P-minimal and LowerBounding; for BiOptSat it is false for instances without solution (counterexample) and proved for the others."
  },
  {
   "property": "C17",
   "status": "proved",
   "theorems": [
    "Scuttle.coreBoost_exact_front",
    "Scuttle.coreBoost_run_sound"
   ],
   "note": "P-minimal and LowerBounding; BiOptSat is C48. No inprocessing."
  },
  {
   "property": "C18",
   "status": "proved",
   "theorems": [
    "Scuttle.coreBoost_ideal",
    "Scuttle.coreBoost_false"
   ],
   "note": ""
  },
  {
   "property": "C19",
   "status": "proved",
   "theorems": [
    "Scuttle.coreBoost_refused"
   ],
   "note": ""
  },
  {
   "property": "C25",
   "status": "proved",
   "theorems": [
    "Scuttle.resetOracle_clauses",
    "Scuttle.resetOracle_refused",
    "Scuttle.started_cnf",
    "Scuttle.coreBoost_reset_clauses"
   ],
   "note": ""
  },
  {
   "property": "C47",
   "status": "proved",
   "theorems": [
    "Scuttle.coreBoost_terminates",
    "Scuttle.coreBoost_unsat_panic"
   ],
   "note": "Feasible instances; coreBoost_unsat_panic is a panic on an infeasible one."
  },
  {
   "property": "C48",
   "status": "partial",
   "theorems": [
    "Scuttle.coreBoost_biOptSat_partial",
    "Scuttle.coreBoost_biOptSat_counterexample"
   ],
   "note": "False if an objective is constant on all solutions (counterexample); proved otherwise."
  },
  {
   "property": "C28",
   "status": "proved",
   "theorems": [
    "Scuttle.oll_lower_bound",
    "Scuttle.oll_assumptions_optimal",
    "Scuttle.oll_answer"
   ],
   "note": ""
  },
  {
   "property": "C29",
   "status": "proved",
   "theorems": [
    "Scuttle.coreBoost_encodings"
   ],
   "note": ""
  },
  {
   "property": "C46",
   "status": "proved",
   "theorems": [
    "Scuttle.minimizeCore_core",
    "Scuttle.trimCore_core",
    "Scuttle.filterBase_core",
    "Scuttle.sortLits_sorted",
    "Scuttle.minimizeCore_unsorted_counterexample"
   ],
   "note": "Containment in the original core needs sorted base assumptions (as the only caller has, none at all); the counterexample shows what happens otherwise."
  },
  {
   "property": "C42",
   "status": "proved",
   "theorems": [
    "Scuttle.linsu_optimum",
    "Scuttle.linsu_ends"
   ],
   "note": ""
  },
  {
   "property": "C21",
   "status": "proved",
   "theorems": [
    "Scuttle.toClausal_total",
    "Scuttle.toClausal_wellFormed",
    "Scuttle.toClausal_sound",
    "Scuttle.toClausal_complete",
    "Scuttle.toClausal_front",
    "Scuttle.toClausal_origDetermines",
    "Scuttle.parsed_front_exact",
    "Scuttle.toClausal_empty_soft_panics"
   ],
   "note": "In a debug build an empty soft clause is a panic (toClausal_empty_soft_panics). Without proof logging."
  },
  {
   "property": "C22",
   "status": "proved",
   "theorems": [
    "Scuttle.reindexing_none_iff",
    "Scuttle.reindexing_wellFormed",
    "Scuttle.reindexing_solution",
    "Scuttle.reindexing_complete",
    "Scuttle.reindexing_pareto",
    "Scuttle.reindexing_front_internal",
    "Scuttle.reindexing_front",
    "Scuttle.reindexed_front_exact",
    "Scuttle.reindexing_front_counterexample",
    "Scuttle.reindexing_duplicates_counterexample"
   ],
   "note": "The external costs are only kept if all common weights are one (reindexing_front_counterexample)."
  },
  {
   "property": "C49",
   "status": "proved",
   "theorems": [
    "Scuttle.maxPreInstance_spec",
    "Scuttle.maxPreInstance_counterexample"
   ],
   "note": "Starts from the result of MaxPre; MaxPre itself is not modelled."
  },
  {
   "property": "C30",
   "status": "proved",
   "theorems": [
    "Scuttle.cli_limits_pos",
    "Scuttle.cli_limits_respected",
    "Scuttle.cli_stores_cnf",
    "Scuttle.cli_coreBoost_no_error",
    "Scuttle.cli_enumeration"
   ],
   "note": "Without MaxPre, so without inprocessing."
  },
  {
   "property": "C31",
   "status": "proved",
   "theorems": [
    "Scuttle.parserFor_infer_ok",
    "Scuttle.parserFor_infer_error"
   ],
   "note": ""
  },
  {
   "property": "C45",
   "status": "proved",
   "theorems": [
    "Scuttle.cliLog_balanced",
    "Scuttle.cliLog_routine",
    "Scuttle.cliLog_opened",
    "Scuttle.cli_log_run"
   ],
   "note": "Routines still open when a run ends early are never closed, since nothing calls log_end_solve."
  },
  {
   "property": "C50",
   "status": "proved",
   "theorems": [
    "Scuttle.cliLog_mono",
    "Scuttle.cliLog_asked"
   ],
   "note": ""
  },
  {
   "property": "C32",
   "status": "proved",
   "theorems": [
    "Scuttle.driver_calls_solve",
    "Scuttle.driver_front_unchanged",
    "Scuttle.driver_errors",
    "Scuttle.driver_warnings",
    "Scuttle.subMain_printed",
    "Scuttle.subMain_ends",
    "Scuttle.subMain_biOptSat_counterexample",
    "Scuttle.subMain_reindexing_counterexample"
   ],
   "note": "subMain_printed and subMain_ends follow the program from the parsed instance to the printed front; the counterexamples show that their conditions for BiOptSat with core boosting and for reindexing are needed."
  },
  {
   "property": "C33",
   "status": "proved",
   "theorems": [
    "Scuttle.tracer_traced",
    "Scuttle.tracer_core",
    "Scuttle.tracer_plain_panics"
   ],
   "note": "tracer_plain_panics: a clause that does not come through the certified collector (solution enumeration) makes the tracer panic."
  },
  {
   "property": "C34",
   "status": "proved",
   "theorems": [
    "Scuttle.derived_implied",
    "Scuttle.derived_exact",
    "Scuttle.derived_unused_counterexample",
    "Scuttle.rup_implied",
    "Scuttle.pol_implied",
    "Scuttle.accepted_covers"
   ],
   "note": "derived_exact: the result is the learned clause if each antecedent is resolved on; derived_unused_counterexample shows that this is needed."
  },
  {
   "property": "C35",
   "status": "proved",
   "theorems": [
    "Scuttle.order_is_pareto",
    "Scuttle.order_transitive",
    "Scuttle.order_reflexive"
   ],
   "note": ""
  },
  {
   "property": "C36",
   "status": "proved",
   "theorems": [
    "Scuttle.bound_defs",
    "Scuttle.bounds_defined",
    "Scuttle.bound_remembered"
   ],
   "note": ""
  },
  {
   "property": "C37",
   "status": "proved",
   "theorems": [
    "Scuttle.pmin_cut_accepted"
   ],
   "note": "Under CutContract, what the proof needs of the encodings (rustsat), and the assumption that the excluded solution is completed by the checker as the code expects."
  },
  {
   "property": "C51",
   "status": "partial",
   "theorems": [
    "Scuttle.pmin_cut_goals_partial",
    "Scuttle.orderGoal_is_order",
    "Scuttle.pmin_cut_unit_weight"
   ],
   "note": "Violated by the code: with unit weight above 1 and cost equal to the lower bound found by core boosting, the subproof misses the factor (counterexample pmin_cut_unit_weight). Proved in all other cases."
  },
  {
   "property": "C38",
   "status": "proved",
   "theorems": [
    "Scuttle.core_extended",
    "Scuttle.coreCon_exact",
    "Scuttle.oll_reformulation",
    "Scuttle.oll_bound_logged",
    "Scuttle.oll_reformulation_exact",
    "Scuttle.exhaust_first_trivial",
    "Scuttle.exhaustion_not_reformulation"
   ],
   "note": "Without core exhaustion: every line and the final reformulation (oll_reformulation), which has no slack if the outputs of the totalizers are right (oll_reformulation_exact), under TotContract and OllAllowed, what the proof needs of the totalizer database and the solver. With core exhaustion the claim is false: exhaustion_not_reformulation."
  },
  {
   "property": "C39",
   "status": "proved",
   "theorems": [
    "Scuttle.implication_derived",
    "Scuttle.reification_accepted"
   ],
   "note": "Under ReifContract, what the proof needs of the outputs of an encoding (rustsat)."
  },
  {
   "property": "C43",
   "status": "proved",
   "theorems": [
    "Scuttle.minimization_improves",
    "Scuttle.minimization_improves_calls",
    "Scuttle.minimization_improves_boosted",
    "Scuttle.reports_last",
    "Scuttle.reported_dominates_start"
   ],
   "note": ""
  },
  {
   "property": "C40",
   "status": "proved",
   "theorems": [
    "Scuttle.fence_rises",
    "Scuttle.fence_rises_calls",
    "Scuttle.fence_rises_boosted",
    "Scuttle.unsat_raises_fence"
   ],
   "note": "After core boosting only that bounds rise: what is encoded then is the reformulated objective. Several calls: without enumeration and for loggers that do not fail."
  },
  {
   "property": "C52",
   "status": "partial",
   "theorems": [
    "Scuttle.block_clause_accepted_partial",
    "Scuttle.temporary_block_accepted",
    "Scuttle.block_clause_buffered_counterexample",
    "Scuttle.permanent_block_rejected",
    "Scuttle.oppRun_rejected"
   ],
   "note": "Without enumeration: proved unless an encoding that misses literals of its objective gives a single assumption (counterexample). With enumeration: the temporary clause is accepted, the line that makes it permanent is not (permanent_block_rejected, oppRun_rejected). Under BlockStart, what the proof needs of encodings and of new variables."
  },
  {
   "property": "C53",
   "status": "proved",
   "theorems": [
    "Scuttle.linsu_bound_accepted",
    "Scuttle.linsu_bound_total",
    "Scuttle.linsu_output_order_counterexample"
   ],
   "note": "Under LinsuStart (core and definitions are in the proof), and, with a buffer, BufferedCore (variables of outputs increase with the values); linsu_output_order_counterexample shows that this is needed. linsu_bound_total: with an empty buffer the function returns."
  },
  {
   "property": "C54",
   "status": "partial",
   "theorems": [
    "Scuttle.bos_cut_accepted_partial",
    "Scuttle.bos_final_contradiction",
    "Scuttle.bos_buffer_counterexample",
    "Scuttle.bos_bound_counterexample"
   ],
   "note": "Proved if the encoding of the increasing objective misses no literal and the lower bound on it is about the literal of the cut. Otherwise violated: bos_buffer_counterexample (a line is rejected) and bos_bound_counterexample (a clause is given to the solver with a constraint it does not follow from)."
  },
  {
   "property": "C55",
   "status": "proved",
   "theorems": [
    "Scuttle.tightened_solution",
    "Scuttle.tightening_ends",
    "Scuttle.tightened_cost",
    "Scuttle.tightened_candidate_counterexample",
    "Scuttle.tightening_never_counterexample",
    "Scuttle.linsu_base_counterexample"
   ],
   "note": "Under Setting.tight: no literal twice in an objective and no weight 0. tightened_candidate_counterexample: costs of earlier objectives may be too high, so candidates in the log can have costs of no solution. tightening_never_counterexample: BiOptSat ignores the option never. C01 to C18 are proved for builds with and without tightening."
  },
  {
   "property": "C56",
   "status": "proved",
   "theorems": [
    "Scuttle.inprocess_given_equivalent",
    "Scuttle.standsFor_front"
   ],
   "note": "For fresh solvers; under the contracts of the totalizer database (LawfulTotDb, LawfulInproDb)."
  },
  {
   "property": "C57",
   "status": "partial",
   "theorems": [
    "Scuttle.inprocess_front_partial",
    "Scuttle.inprocess_counterexample",
    "Scuttle.inprocess_constant_counterexample"
   ],
   "note": "Proved if MaxPre keeps the models and only removes soft clauses that hold in all models or in none, and each objective has two values. Otherwise violated: inprocess_counterexample (unit propagation: wrong costs, since values of removed variables are not reconstructed) and inprocess_constant_counterexample (panic for an objective without soft clauses, with a MaxPre that does nothing)."
  },
  {
   "property": "C58",
   "status": "proved",
   "theorems": [
    "Scuttle.subMainPre_printed",
    "Scuttle.subMainPre_ends",
    "Scuttle.preParsed_front",
    "Scuttle.preprocess_unused_counterexample",
    "Scuttle.preprocess_enumeration_counterexample"
   ],
   "note": "For a MaxPre that keeps the costs and reconstructs solutions (PreKeeps) and whose result has no objective variable higher than those of its clauses (ParsedOK of preParsed); preprocess_unused_counterexample shows that this is needed. preprocess_enumeration_counterexample: with preprocessing, enumerating solutions does not give all solutions of minimal costs."
  },
  {
   "property": "C59",
   "status": "proved",
   "theorems": [
    "Scuttle.cert_start",
    "Scuttle.input_ids",
    "Scuttle.proof_reindex_refused",
    "Scuttle.setUpRun_plain",
    "Scuttle.nConstraints_eq",
    "Scuttle.refCert_good"
   ],
   "note": "Under GoodCertEncoding, what is assumed of cert::default_encode_pb_constraint of rustsat; refCert_good: there is an encoder that meets it. That the user gives the checker the dumped file, or an equivalent one, is in the trusted base."
  },
  {
   "property": "C60",
   "status": "partial",
   "theorems": [
    "Scuttle.coreBoostCert_same_partial",
    "Scuttle.coreBoostCert_reset_panics",
    "Scuttle.coreBoostInproCert_panics"
   ],
   "note": "Violated by the code in debug builds: with reset or inprocessing, which the command line does not refuse, core boosting with a proof always panics where it succeeds without. Proved for the other options. What release builds do after the oracle with the tracer is replaced is not modelled."
  },
  {
   "property": "C61",
   "status": "proved",
   "theorems": [
    "Scuttle.whole_proof_accepted",
    "Scuttle.whole_proof_covers",
    "Scuttle.whole_proof_points",
    "Scuttle.whole_proof_front",
    "Scuttle.whole_proof_checked"
   ],
   "note": "For runs described by ProofRun. What is assumed of encodings (GrowOk, RunAllowed), of the SAT solver (SolverOk: it only derives and deletes) and of solutions (RoundOk: satisfies the input, not weakly dominated by earlier points, which C01 and C05 are about) is stated without the state of the proof, so that nothing is assumed about the lines the code itself writes. Unbuffered excludes the case in which C52 is violated."
  },
  {
   "property": "C62",
   "status": "proved",
   "theorems": [
    "Scuttle.cut_short",
    "Scuttle.not_cut_short",
    "Scuttle.logger_no_influence",
    "Scuttle.logger_same_call",
    "Scuttle.cut_short_exact",
    "Scuttle.driver_cut_short",
    "Scuttle.subMain_cut_short"
   ],
   "note": "The same solver: SameSolver, the answers are those of the other environment at the same time, or interrupted once the flag is set. For the logger the answers must not depend on the time (a logger call is one unit of time in the model). The time that limits or a logger take, and with it when an interrupt comes, is not modelled."
  },
  {
   "property": "C63",
   "status": "proved",
   "theorems": [
    "Scuttle.fence_covered",
    "Scuttle.fence_covered_boosted",
    "Scuttle.ideal_true"
   ],
   "note": "The fence is read as the bounds that are searched; the internal costs in the messages are converted with the offset and the weight of the objective. For runs with core boosting the first fence is that of the offsets of the encodings. If there is no feasible assignment, the ideal point in the log may have too few entries."
  },
  {
   "property": "C64",
   "status": "proved",
   "theorems": [
    "Scuttle.candidates_reached",
    "Scuttle.candidates_attained",
    "Scuttle.improvements_true",
    "Scuttle.messages_true_boosted"
   ],
   "note": "Nothing is assumed about limits or debug builds. That a candidate may be attained by no assignment with tightening and shared literals is tightened_candidate_counterexample of C55."
  },
  {
   "property": "C65",
   "status": "proved",
   "theorems": [
    "Scuttle.cores_account",
    "Scuttle.cores_lower"
   ],
   "note": "The sums are in the internal scale of the objective, as is the ideal point in the log. For a fresh solver; core boosting with inprocessing is not covered."
  },
  {
   "property": "C66",
   "status": "partial",
   "theorems": [
    "Scuttle.cutBoost_partial",
    "Scuttle.cutBoost_counterexample",
    "Scuttle.cutBoost_reserve_counterexample"
   ],
   "note": "With core exhaustion or minimization the conflict limit stays in force and a later call panics or fails; with a reset of the oracle and variables reserved for the encodings a later call can miss a point (counterexamples). Proved without these, also with a reset, and for BiOptSat if no objective is flat as in C48."
  },
  {
   "property": "C67",
   "status": "proved",
   "theorems": [
    "Scuttle.readFront_printed",
    "Scuttle.frontText_injective",
    "Scuttle.statsText_quiet",
    "Scuttle.logText_quiet",
    "Scuttle.readLog_printed",
    "Scuttle.subMain_read"
   ],
   "note": "Without colours. How rustsat displays an assignment or a result, and how a time is displayed, is a parameter that prints no line break."
  },
  {
   "property": "C68",
   "status": "proved",
   "theorems": [
    "Scuttle.boosts_solve",
    "Scuttle.boosts_again"
   ],
   "note": "Calls that are cut short are without core exhaustion and core minimization, and with a reset only if the oracle is free of variables of the encodings before the call (fresh without reserved variables, or after a reset), see C66; BiOptSat needs NotFlat as in C48."
  },
  {
   "property": "C69",
   "status": "proved",
   "theorems": [
    "Scuttle.cut_log",
    "Scuttle.not_cut_log",
    "Scuttle.runAlg_cut_log",
    "Scuttle.cut_log_counterexample"
   ],
   "note": "The counterexample shows that the second exception does happen: the end of a routine is still logged after the message about a non-dominated point was lost (finding 47)."
  },
  {
   "property": "C70",
   "status": "partial",
   "theorems": [
    "Scuttle.logger_error_reported",
    "Scuttle.logger_error_reported_partial",
    "Scuttle.boost_logger_error_reported",
    "Scuttle.runAlg_logger_error_reported",
    "Scuttle.program_logger_error_reported",
    "Scuttle.logger_error_lost"
   ],
   "note": "Proved for calls without a limit on the number of points, and for calls with one that it does not end. False otherwise (logger_error_lost, finding 11): the reason of that limit is returned instead of the error."
  },
  {
   "property": "C71",
   "status": "proved",
   "theorems": [
    "Scuttle.candidates_not_repeated",
    "Scuttle.candidates_not_repeated_boosted",
    "Scuttle.bioptsat_candidates_repeated"
   ],
   "note": "For P-minimal and lower-bounding. BiOptSat, which the property is not about, does consider candidates again (bioptsat_candidates_repeated, finding 48)."
  },
  {
   "property": "C72",
   "status": "proved",
   "theorems": [
    "Scuttle.pminimal_oracle_calls",
    "Scuttle.lowerbounding_oracle_calls",
    "Scuttle.bioptsat_oracle_calls",
    "Scuttle.pminimal_oracle_calls_bounded"
   ],
   "note": "Counted in the messages of the call. Nothing is assumed about the SAT solver or the encodings except in the last theorem."
  },
  {
   "property": "C73",
   "status": "proved",
   "theorems": [
    "Scuttle.bioptsat_left_to_right",
    "Scuttle.bioptsat_first_point",
    "Scuttle.coreBoost_bioptsat_left_to_right",
    "Scuttle.others_not_left_to_right"
   ],
   "note": "For a first call of solve. The last theorem shows that the other algorithms do not have this property."
  },
  {
   "property": "C74",
   "status": "proved",
   "theorems": [
    "Scuttle.bioptsat_same_points",
    "Scuttle.coreBoost_bioptsat_same_points",
    "Scuttle.others_depend_on_oracle"
   ],
   "note": "For first calls of solve. The last theorem shows that the other algorithms do not have this property."
  },
  {
   "property": "C75",
   "status": "proved",
   "theorems": [
    "Scuttle.subMain_left_to_right",
    "Scuttle.subMain_same_points",
    "Scuttle.subMainPre_left_to_right",
    "Scuttle.subMainPre_same_points"
   ],
   "note": "C73 and C74 for the whole program, with the assumptions of C32 and, with MaxPre, of C58 on the parsed instance."
  },
  {
   "property": "C76",
   "status": "proved",
   "theorems": [
    "Scuttle.subMain_answers",
    "Scuttle.subMainPre_answers",
    "Scuttle.subMain_first_point",
    "Scuttle.subMainPre_first_point"
   ],
   "note": "With the assumptions of C32 on the parsed instance, with preprocessing those of C58."
  }
 ]
}