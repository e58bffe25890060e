# Formal model of scuttle: design

The model is written in Lean 4 (`lean/Verif`). It follows the Rust code in `/repo` function by function; every
definition cites the file and lines it models and states its simplifications.

* `Model/` – the model of the code, one file per theme.
* `Spec*.lean` – the independent specification: what a Pareto front *is* (`Spec.lean`), what well-formed instances are
  (`SpecInst`), what a run has to deliver (`SpecRun`), what a log has to look like (`SpecIo`), what a core or a
  reformulation is (`SpecCore`), what preprocessing has to keep (`SpecPrepro`), what the command line has to do
  (`SpecCli`), when a proof line is correct (`SpecProof`, `SpecTracer`, `SpecProofLog`, `SpecOll`,
  `SpecBlock`, `SpecLinsu`, `SpecBos`, `SpecCertPre`, `SpecRunLog`), what inprocessing and preprocessing with MaxPre have to
  keep (`SpecInpro`, `SpecPre`), what it means to cut a run short (`SpecCut`). `Spec.lean` uses no
  function of the model.
* `Proof/` – invariants and lemmas.
* `Props/` – the property theorems, one file per theme, with concrete cases that meet their hypotheses beside them.
* `Example.lean` – concrete instances, and a concrete oracle, encoding and totalizer database (`Proof/RefEnc`,
  `Proof/RefTot`, `Proof/RefPb`) that meet all contracts, so the theorems can be instantiated without any assumption.

## Trusted base

1. The Lean 4.33.0 kernel, and that the definitions in `Model/` say what the Rust code says. No axioms are added, there
   is no `sorry`, no `native_decide` and no `bv_decide`. The axioms used by each theorem are listed at the end.
2. The contracts of code that is not in the repository (the directories `rustsat`, `maxpre-rs` and `pigeons` are empty in
   this checkout). They are hypotheses of the theorems, not axioms:
   * **SAT solver** (`Spec.CorrectOracle`): a model satisfies clauses and assumptions; a core consists of negated
     assumptions and is implied by the clauses; `Interrupted` only comes after the flag was set or with a conflict limit.
     The answer may depend on the time, so any adaptive or randomised solver is covered. For core boosting also: the
     literals of a core are distinct (`NoDupCores`).
     With `sol-tightening`: if `flip_lit` succeeds, the new model satisfies the clauses, makes the literal true and keeps the
     values of all other variables of objectives, which the code freezes (`algs.rs:289-295`).
   * **Objective encodings** (`LawfulUbEnc`): `Totalizer` and `GeneralizedTotalizer` as used through `UbEnc`.
   * **Totalizer database and merging** (`LawfulTotDb`, `LawfulMergeEnc`): as used by core boosting.
   * **PB encodings at parsing** (`Spec.GoodPbEncoding`): models of the clauses are exactly the models of the constraint,
     extended to fresh variables. With a proof (`Spec.GoodCertEncoding`): it returns the same clauses, writes correct lines,
     and gives each clause the id of its own constraint. That VeriPB reads an equality as two constraints, the `>=` one
     first, is also assumed; and that the file given to it is the dumped one, or one with the same constraints.
   * **Display** (C67): how `rustsat` displays an assignment or a result of the oracle, and how a time is displayed, are
     parameters that print no line break. Rust's formatting of integers is `Nat.toDigits 10` with a sign.
   * **MaxPre**: C49 starts from the result of MaxPre. For preprocessing (C58) it is a parameter with the contract
     `Spec.PreKeeps`: soft clauses of the result are literals, a solution of the result is reconstructed to a solution that
     is not worse, and each solution has one of the result that is not worse. For inprocessing (C56, C57) it is a parameter, a function from hard
     and soft clauses to hard and soft clauses; C57 states what it needs of it (`Spec.MpKeeps`). Nothing else is said
     about MaxPre.
   * **`reset_encoded` of the totalizer database** (`LawfulInproDb`): the outputs keep their variables, and no clauses count
     as emitted.
   * **Definitions in proofs** (`Spec.CutContract`, `Spec.ReifContract`, `Spec.TotContract`, `Spec.OllAllowed`,
     `Spec.BlockAllowed`, `Spec.LinsuStart`, `Spec.BufferedCore`): which
     constraints the certified encodings of rustsat leave in the proof.
   * **CaDiCaL's tracer events** (`Spec.Allowed`): ids are consecutive, antecedents are known, learned clauses are implied
     by reverse unit propagation.
3. The rules of the proof checker (VeriPB) as written down in `Model/Pb.lean` and `SpecProof.lean`: `pol`, `rup`, `red`
   with order, `solx`, `core`, `del` with subproofs. The theorem `accepted_covers` is proved about these rules: it says
   what an accepted proof establishes. The *syntax* of proof files is not modelled.

## How the code is modelled

* **Assignments, clauses, objectives**: total assignments `Nat → Bool` for semantics; `rustsat`'s `Assignment` is a list
  of ternary values. `HashMap`s are association lists with distinct keys; theorems hold for every order of the list.
* **Kernel and algorithms**: a state monad with four ways to stop: `terminated` (a limit or the interrupt), `error`
  (`anyhow::Error`), `panic` (failed `unwrap`/`expect`/index/`unreachable!`, and failed `debug_assert!` if debug
  assertions are on) and `fuel`. State changes made before an early exit persist, as with `&mut self` in Rust.
* **Loops** take a fuel argument. Running out of fuel is a separate outcome. Theorems are stated for every fuel value
  (partial correctness), and separately there is a bound, which depends only on the instance, from which on `fuel` does
  not occur (termination).
* **Interrupts and logger**: the termination flag is a function of time (monotone), and so is whether the logger
  succeeds. Theorems quantify over both, so over every interrupt and failure point.
* **Numbers** are unbounded. The exceptions, where the code's behaviour at the end of the range is part of a property,
  are the limit counters (underflow at 0) and the conversion of costs to `isize` (`Spec.FitsIsize`).
* **Proof logging** is off in the model of the algorithms. The code that writes proofs is modelled separately at the level
  of the constraints it writes (`Model/{Pb,Tracer,ProofLog,OllLog,BlockLog,LinsuLog,BosLog}.lean`), as functions from the state of the proof and
  the views of encodings it gets to the lines it appends.

## What is modelled and what is not

| File | Modelled | Not modelled |
|------|----------|--------------|
| `core/src/lib.rs` | limits, `MaybeTerminatedError` | – |
| `core/src/termination.rs` | all outcomes, the `?` operator on them | conversion to text |
| `core/src/options.rs` | all options that influence a run | `BoundConvergence` (feature that does not compile) |
| `core/src/types.rs` | `Objective`, `ParetoFront`, `VarManager`, `Reindexer`, `Instance`, `ObjEncoding` | serialisation |
| `core/src/prepro.rs` | `to_clausal`, `process_objective`, `reindexing`, `max_pre`, the certified conversion (`Model/CertPre.lean`) | parsing, MaxPre, writing the OPB file |
| `core/src/algs.rs` | `SolverKernel`, limits, statistics, logging, interrupts, `linsu`, `yield_solutions`, oracle reset, dominating assumptions, solution tightening | phase hints (no influence on which answers are correct), timing |
| `core/src/algs/pminimal.rs` | everything; the proof logging of blocking clauses separately (`Model/BlockLog.lean`) | – |
| `core/src/algs/lowerbounding.rs` | everything; proof logging as in `pminimal.rs` | – |
| `core/src/algs/bioptsat.rs` | everything; the proof logging of a point separately (`Model/BosLog.lean`) | the lines for verbose proofs |
| `core/src/algs/coreguided.rs` | OLL, core exhaustion, trimming, minimization; proof logging of OLL and exhaustion | – |
| `core/src/algs/coreboosting.rs` | core boosting, merging, inprocessing; what differs with a proof apart from the lines (`Model/CbCert.lean`) | the verbose proof check at 156-192 (it is the specification of C38), `sol-tightening` with inprocessing |
| `core/src/algs/proofs.rs` | `init_proof`, order, objective bounds, P-minimal cut, reification of assumptions, `linsu_certify_lower_bound` | writing to files |
| `cadical-veripb-tracer/src/lib.rs` | all callbacks | the C interface |
| `src/cli.rs` | options, file format inference, logger | argument parsing (clap), colours, text of messages |
| `src/main.rs` | `sub_main`, `parse_instance` after parsing | signal handlers |
| `proc/src/lib.rs` | the functions it generates are modelled directly (they forward to the kernel) | macro expansion |

## Properties

One line per property: what is modelled, how it is proved. Exact statements are the theorems named in `MANIFEST.json`.

| Id | Model | How it is proved |
|----|-------|------------------|
| C01 | `PMin.solve` | invariant: clauses in the oracle allow exactly the assignments not covered by a reported point; each loop iteration keeps it; at `unsat` nothing is left |
| C02 | `LB.solve` | as C01, with the fence as assumptions; each assignment left violates the fence, a core raises it, an empty core means nothing is left |
| C03 | `BOS.solve` | lexicographic minimum in each iteration; clauses and bounds exclude exactly what has been covered |
| C04, C05 | all three | the same invariants give the post-condition of every way to stop |
| C06 | all three | measure: number of cost vectors left, sum of costs, number of original assignments left; gives an explicit fuel bound |
| C07 | `Alg.new`, all three | the outcomes `panic` and (without logger failure) `error` are excluded by the same proofs |
| C08–C10, C41 | `yieldSolutions`, blocking clauses | invariant on solutions blocked so far. C10 is false in general (finding 1) |
| C11–C13, C27 | all three | logic for I/O effects (`Proof/IoLogic.lean`): a property of counters, log and time that each primitive keeps is kept by every algorithm |
| C14, C15 | histories of `solve` calls | invariant that survives early exits. C15 is false in general (finding 2) |
| C16 | all three | both fronts are exact |
| C17, C18, C28, C29, C47, C48 | `oll`, `coreBoost`, `merge` | reformulation identity as invariant: objective = lower bound + weights of inactive literals + remaining outputs. C48 is false in general (finding 3) |
| C19, C25 | `coreBoost`, `resetOracle` | by computation on the model, for all states |
| C20 | `Objective.new` | case analysis on the weights |
| C21, C22, C49 | `processObjective`, `toClausal`, `reindexing`, `maxPreInstance` | simulation in both directions between assignments before and after |
| C23, C24 | `Reindexer`, `VarManager` | invariants over histories of calls |
| C26 | `ParetoFront` | induction |
| C44 | `checkDominated`, `ParetoFront.extendChecked` | induction over the vectors; the runs follow from C04, C14 and C17: the points of a sound front, added one at a time, pass the check |
| C30–C32, C45, C50 | options, `parserFor`, `subMain`, `CliLogger` | case analysis; C32 also composes parsing, core boosting, solving and reindexing to a statement on the printed front |
| C33 | `Tracer` | invariant over histories of solver events |
| C34 | `derivedOps`, proof rules | semantic soundness of cutting planes and of each rule; `accepted_covers`: in an accepted proof each solution is covered by a logged one |
| C35 | `orderCon`, `transOps` | slack of the order constraints is the difference of the objective values |
| C36 | `getObjBound` | slack of the two definitions; witness of the redundance steps |
| C37, C51 | `certifyPminCut` | each line is accepted (C37) and each subproof closes its goal (C51, false in one case: finding 27) |
| C38 | `logCore`, `logReform`, `logFinal` | invariant: each tracked constraint has the slack `sum of leaves − outputs so far − 1`; their weighted sum is the reformulation; if the outputs have the values of their definitions there is no slack left (`oll_reformulation_exact`) |
| C39 | `certifyAssumpReification` | each line is accepted, each clause given to the solver has its constraint |
| C52 | `dominatedBlock`, `permanentBlock`, `temporaryBlock`, `makePermanent` | a pass over the objectives keeps the contracts of the later ones (`BlockAllowed`, `BlockStep`) and links each literal of the cut to a literal of the clause by a reification that the hints name; unit propagation then runs through. False in two cases: findings 22 and 25 |
| C53 | `linsuCertify`, `coreStart`, `linsuImpls`, `linsuImplsBuffered` | each literal of the core is a negated base assumption, the bound itself, or made false by a derived constraint once the bound is false, so unit propagation on the core gives the clause (`rup_of_core`); the derived constraints are removed again (`Deduces.del`) |
| C54 | `bosLog`, `bosFinal` and their parts | literals cancel in the sums (slacks of the constraints are computed exactly); implications between outputs are derived and removed (`Lines`); the clause kept for the next point and the cut give the next lower bound (`IncBound`). False in two cases: findings 24 and 32 |
| C55 | `getCostTight`, `tightCosts`, `getSolutionAndCosts` | each flip keeps a model and lowers one literal of the objectives only (`Flipped`); induction over the literals and over the objectives; all proofs about runs use these rules, so C01 to C18 hold with and without tightening |
| C56 | `collectLit`, `collectAll`, `inprocess`, `coreBoostInpro` | the soft clauses and the clauses of the outputs that are defined give the value of each objective for exact models (`Items`), and not less for all models (`Collected.standsFor`); the state of a run is followed up to the call of MaxPre |
| C57 | `readSofts`, `totCons`, `inproEncs`, `setInproEncs`, the algorithms | what is left of the soft clauses is read back into connections whose sum is the value of the objective (`SInv`, `tot_entry`); the encodings then meet the conditions under which C17 is proved (`Ready`, `Boosted`). False in two cases: findings 39 and 40 |
| C58 | `maxPre`, `subMainPre`, `Exit.reconstruct`, `solveReindexed` | the run is one of `subMain` on what MaxPre returns (`subMainPre_eq`), which has the non-dominated costs of the parsed instance (`preParsed_front`); the printed solutions are reconstructed ones. Needs that `max_var` covers the objectives (finding 17); the set of solutions is not kept (finding 44) |
| C59 | `nConstraints`, `initProof`, `Collector`, `encodeCert`, `toClausalProof`, `startCert`, `setUpRun` | loop invariant of the conversion: the constraints still to be encoded are in the proof under the ids that the loop will use, and each collected clause has an id below those or above the input (`encodeCert_spec`); the events of adding the clauses are then ones for which C32 is proved (`cert_events_allowed`) |
| C60 | `replaceEncsCert`, `coreBoostCert`, `coreBoostInproCert` | equality of the functions without reset; with reset there is a reformulation for each objective (`kernelCoreBoost_length`), so the assertion is reached. False with reset and inprocessing: finding 45 |
| C61 | `permanentBlock` (as for C52), runs of it with other lines between (`Spec.ProofRun`) | `ext` gives the values that variables of encodings are meant to have. Invariant `RunInv`: each solution that no blocked point weakly dominates satisfies all constraints once recorded variables get their meaning; so the state that C52 needs follows for the next solution. The last line is then a contradiction only if nothing is left; `whole_proof_checked` is `accepted_covers` on the lines. Not part of it: `core` lines the tracer writes when clauses are added come with the lines of the solver |
| C62 | all of the solving functions, `coreBoost`, `runAlg`, `solveInstance`, `subMain` | `Rel`: two runs of a function from states that differ in limits, log and time only end in such states with the same result, or the first one stops; then its front is a first part of what the second one has after anything that follows. One rule for each construct of the monad and one lemma for each function; no semantic invariant is used, so it holds for wrong oracles too. `cut_short_exact` adds C01 |
| C63 | `lbSolve`, `updateFence`, `kernelCoreBoost`, `coreBoost` | `OKeep`: apart from updates of the fence, the log only grows and has all points of the front, an instance of `IoCore`. At an update of the fence, the core refutes the fence literals, which hold in the extension of every allowed solution below the fence (`FenceEntry.hold`), so what is below is not allowed any more and covered. The ideal point is that of the reformulations, whose offsets are the least values (`Entry`) |
| C64 | `logCandidate`, `getCostTight`, `tightCosts`, `getSolutionAndCosts`, `linsuBody`, `pminBody`, `harvestBody` | `CandInv`: the clauses only grow, so each model of the oracle is feasible. After an oracle call the state is `Backed`; the costs are read from the model (`cand_tightCosts`), tightening an objective only sets literals of objectives to false, so earlier costs may be too high, and are exact if no literal is shared. All other steps keep the invariant, however they end |
| C65 | `handleCore`, `reformCore`, `ollBody`, `oll`, `coreBoostLoop`, `kernelCoreBoost`, `coreBoost` | `LK xs`: the sums over the log are `xs`. Along a run of OLL the sum for this run is the offset of the reformulation (`lk_handleCore`, `lk_reformCore`), which is a lower bound by `RefOK.ident` and the least value at the end by `OllDone`; all other steps log nothing about cores (`NK`), however they end |
| C66 | `coreBoost`, `oll` and all they call, then any algorithm | `Usable`: at every early exit the database invariant holds up to the conflict limit; `Left`: so it does when some encodings are replaced (`Mix.mixed`), also after a reset of the oracle if the encodings rely on no clauses yet (`Pristine`). A state with `Left` and no conflict limit is `Prepared`, from which `prepared_run` gives the claim. False with core exhaustion or minimization (finding 15), and with a reset if variables are reserved (finding 46) |
| C67 | `print_pareto_front`, `print_non_dom`, `VecPrinter`, `print_stats`, texts of `CliLogger` (`Model/Print.lean`) | `SpecPrint.lean` has a reader of its own: lines, decimal numbers, parts between commas. `unlines`: a printed text is its lines put together; `readLines_front` by induction over the points, `commaParts_rest` over the costs. Lines of statistics and messages start with other characters (`FirstChar`). `subMain_read` combines this with C32 |
| C68 | as C17 and C66 | `Boosts` is the relation of any number of calls. `Reboost` is kept by each call: `Fine` (what a call needs; no longer only of fresh solvers), `Left` (what it leaves behind) whether the encodings are `Pristine`, and the frame `CbI` (front, number of calls to `solve`, limits). Then `Left.run` as for C66 |
| C69 | `SpecCut.lean` (`LogPrefix`, `LogLost`) | the relation `Rel` of C62 also compares logs: they are equal as long as the first run goes on (`SameState`), `LogBefore` when it stops (`Cut`), and computations only add messages (`LG`). `yieldLoop_log` says what a complete call of `yield_solutions` logs |
| C70 | the call in the environment with `logOk := fun _ => true` | `Proof/Loud.lean`: each computation ends with an error, or is equal to the one with a logger that does not fail (`Loud`). The only place where a result is bound without `?` is `yield_solutions` (`loud_attempt`, `error_report`) |
| C71 | `NoRepeat`, `costVectors` in `SpecDistinct.lean` | `Proof/DistinctLog.lean`: the models of the clauses are not above any candidate of the call, or only if the block switch is on, which is assumed (`Under`); only the soundness of the blocking clauses is used (`ds_domBlockLoop`), so it holds however the call ends |
| C72 | `numOf`, `harvests`, `fenceMoves` in `SpecAccount.lean` | `Proof/Account.lean`: an amortized count; each oracle call is a debt that is paid by a message after it (`AcCtx.debt`), and an invariant bounds the debt at each place of the three algorithms (`AcInv`), exactly for P-minimal and lower-bounding without enumeration; `bal_eq` turns the debt into counts |
| C73 | `Before`, `LeftPart` in `SpecBosOrder.lean` | `Proof/BOSProof.lean`: the invariant of the loop of BiOptSat also says that the second costs decrease and that each missing non-dominated point has a smaller one (`BosOrder`); `Props/BosOrder.lean` translates this to external costs |
| C74 | initial parts of the lists of costs (`<+:`) | `Props/BosSame.lean`: from C73 and C04, two sorted lists of points without gaps are initial parts of one another (`prefix_of_before`); C03 for complete calls |
| C75 | `PrintedLeft` in `SpecBosOrder.lean` | `Props/BosPrinted.lean`: C73 through `runAlg`, `solveInstance` and `subMain`, as in C32; the second part as in C74 |
| C76 | `Answers`, `LexLe`, `weightedSum` in `SpecAnswers.lean` | `Props/Answers.lean`: from C32, C58 and C75, and that each solution is weakly dominated by one on the Pareto front, by induction on the sum of the costs |
| C43 | `pMinimization`, `yieldSolutions` with the log | the semantic invariants of C01 carry that each candidate logged in a minimization improves on the one before; a syntactic pass shows that the point reported is the last candidate |
| C40 | `updateFence`, `lbBody`, `lbMain` | The log of a run is a chain of fences starting at zero in which each fence is componentwise at least the one before, differs from it, and stays below or at the next value of each objective (`fence_rises`), also over several calls with loggers attached and detached (`fence_rises_calls`) and, without the last part, after core boosting (`fence_rises_boosted`). In the messages of a call, a call of the oracle in the main loop without solution is followed by a fence, unless `solve` ends (`unsat_raises_fence`, for every oracle). `Proof/LogPred.lean` turns properties of logs into invariants of the routines; `Proof/LBProof.lean` carries the chain through the main loop. |
| C42 | `linsu` | the same lemma that C03 uses, for any base assumptions |
| C46 | `minimizeCore`, `trimCore`, `filterBase` | each call that drops a literal keeps "implied by the clauses" |

## Findings

Where the code does not do what the property says. "Proved" means that a theorem in `Props/` shows it on a concrete run
of the model; the others were found by reading and are not part of any claim.

1. **C10** (proved, `pmcs_enumeration_counterexample`): `yield_solutions` truncates the solution to `max_orig_var` before
   `block_pareto_mcs` looks at it. Objective literals above `max_orig_var` (relaxation variables of soft clauses with more
   than one literal) are missing from the blocking clause; in the extreme case it is empty and the rest of the front is lost.
2. **C15** (proved, four counterexamples): P-minimal without enumeration blocks a candidate for good before it is reported;
   if a candidate limit, an oracle-call limit or an interrupt ends `solve` in between, a later call returns `Done` with
   this point missing. With enumeration, ending at the point limit leaves the point blocked only solution by solution, so
   a later call reports dominated points. BiOptSat ending at the point limit reports the same point again.
3. **C48** (proved, `coreBoost_biOptSat_counterexample`): BiOptSat after core boosting: if all literals of an objective
   are consumed by cores its encoding becomes `Constant`, which drops the offset.
4. **C20** (proved): `Objective::new` with a repeated literal and different weights keeps only the last weight.
5. **C22** (proved): `reindexing` rebuilds an unweighted objective with unit weight 1; it panics if there are no literals
   at all; converting solutions back can give the same solution twice.
6. **C23** (proved): `Reindexer::forget_from` keeps one entry too many in the map back; `new_var` is not reversible;
   `combine` does not extend the map back, and the first variables of both reindexers get the same name
   (`reindexer_combine_clash`; `combine` is not called in /repo).
7. **C27** (proved): BiOptSat on an unsatisfiable instance does not log the end of its routine.
8. **C38** (proved, `exhaustion_not_reformulation`): with core exhaustion the derivation adds `if_def` instead of
   `only_if_def` (`coreguided.rs:604-634`); the result is not the constraint that is needed. Off by default.
9. **C11** (proved): a limit of `Some(0)` underflows (excluded by the command line, possible with the library).
10. **C33** (proved, `tracer_plain_panics`): solution enumeration adds clauses to the oracle directly, which gets the id
    mapping of the tracer out of step; the tracer then panics.
11. **C70** (proved, `logger_error_lost`): if the message about a solution fails and the point is the last one allowed by the
    limit on points, then the reason of the limit is returned instead of the error (`nd_term?` before `return Error(err)`,
    `algs.rs:705-709`). The point lacks the solutions that would have been found after it.
12. **C47** (proved, `coreBoost_unsat_panic`): core boosting with core minimization on an infeasible instance panics.
13. Core boosting needs that no objective has a literal twice (`NoDupLits`), which parsing guarantees.
14. **C46** (proved): minimization and trimming of cores filter with unsorted base assumptions. The only caller has none.
15. **C66** (proved, `cutBoost_counterexample`): `limit_conflicts` is not reset if core exhaustion or minimization exits
    early (`coreguided.rs:620-639`, `:680-722`). If the logger fails right before an oracle call of core exhaustion, the
    next call to `solve` runs with the limit; LowerBounding then panics (`lowerbounding.rs:329`), the others fail.
16. `merge_cons` drops the limit of the root; with only constant
    objectives `core_boost` returns `true` even if the instance is unsatisfiable.
17. **C49**, **C58** (proved, `preprocess_unused_counterexample`): `max_pre` takes `max_var` from the clauses only, not from the objectives.
18. **C21** (proved): an empty soft clause is a panic in debug builds.
19. `log_end_solve` is never called, so routines still open when a run ends early are not closed in the output.
20. `main` returns `Ok` on errors; a file named `x.gz` has no extension to infer the format from.
21. see 10.
22. **C52** (proved, `permanent_block_rejected`, `oppRun_rejected`): the permanent blocking unit (`pminimal.rs:324`, `:510`,
    `lowerbounding.rs:531`) is logged as a redundance step with an empty substitution, so the unit itself would have to be
    implied. (Unless the library that writes the proof, which is not in this checkout, adds a substitution.)
23. see 8.
24. **C54** (proved, `bos_buffer_counterexample`): BiOptSat's proof with a non-empty buffer (`bioptsat.rs:566-619`) uses the
    second objective for assumptions of the first; the line is rejected.
25. **C52** (proved, `block_clause_buffered_counterexample`): if `enforce_ub` gives a single assumption while the buffer is not
    empty, the blocking clause is not implied by the hints.
26. `linsu_certify_lower_bound` with an empty buffer: a unit core that is not the first output would be a debug panic. It does
    not occur, as the last solution satisfies the core. The constraint returned for a unit core has no base assumptions.
27. **C51** (proved, `pmin_cut_unit_weight`): in `certify_pmin_cut` the subproof for cost equal to the lower bound misses
    the factor `unit_weight`.
28. `certify_pmin_cut` with a non-empty buffer and a positive lower bound would be wrong; it cannot occur.
29. `certify_pmin_cut` (`proofs.rs:225`) with one output while the buffer is not empty would use a wrong literal. Whether that
    occurs depends on rustsat; `CutContract.single` and `BlockAllowed` exclude it.
30. In the enumeration branch of `p_minimization` (`pminimal.rs:486-523`) the candidate blocked before is made permanent with
    the cut of the *new* solution, so its hints are about other costs than its reifications.
31. **C53** (proved, `linsu_output_order_counterexample`): with a non-empty buffer, `linsu_certify_lower_bound` tells literals
    of the objective from outputs by the order of variables. If rustsat gives a higher output a lower variable than the first
    one, and the first one is not in the core, then a line is written that a checker rejects. `BufferedCore` excludes it.
32. **C54** (proved, `bos_bound_counterexample`): `linsu` certifies its bound when the encoding is extended to the cost minus
    one, the cut is derived when it is extended to the cost. If a literal has exactly that weight, the bound is about a
    proof-only variable and the cut about an output; their sum is not the clause that the solver gets with its identifier.
33. `bioptsat.rs:516` asks for the output of the value after the cost also if the cost is the highest value. Whether that
    panics depends on rustsat; the model takes `details` as given.
34. **C55** (proved, `tightened_candidate_counterexample`): with `sol-tightening`, `get_solution_and_internal_costs` evaluates
    the objectives one after the other on a solution that each of them may change. Costs of earlier objectives can be out of
    date (too high), so a reported candidate can have the costs of no solution. The front is right nevertheless.
35. **C55** (proved, `tightening_never_counterexample`): `linsu` (`algs.rs:844`) and `bioptsat` (`bioptsat.rs:390`, `:769`) tighten
    whatever the option `solution_tightening` says.
36. **C42** (proved, `linsu_base_counterexample`): with `sol-tightening`, `linsu` with base assumptions and without upper bound
    can return a solution that violates the assumptions. The crate never calls it like this.
37. The feature `sol-tightening` without `maxpre` does not compile: `algs.rs:548` uses `self.inpro`, a field that exists with
    `maxpre` only (`algs.rs:190-192`). The feature `coarse-convergence` does not compile: `pminimal.rs:538` calls
    `enforce_dominating_cert`, which does not exist.
38. With `sol-tightening`, a literal of weight 0 can be flipped without the solution being read again (`algs.rs:571`), and a
    literal that occurs twice can violate the debug assertion on the cost. `Setting.tight` excludes both.

39. **C57** (proved, `inprocess_counterexample`): after inprocessing, costs are computed (`algs.rs:594-609`) and solutions are
    yielded from a model of the clauses that MaxPre returned, without reconstruction. If MaxPre removes a variable of an
    objective (one step of unit propagation suffices), costs that no solution has are reported.
40. **C57** (proved, `inprocess_constant_counterexample`): an objective without soft clauses is skipped (`coreboosting.rs:360`),
    so that `encs` has fewer entries than there are objectives. P-minimal and LowerBounding then panic in `solve`, BiOptSat
    at `bioptsat.rs:301`. This needs no preprocessing at all: a flat objective is enough.
41. In the same branch the offset of the `Constant` (`coreboosting.rs:362`) adds internal costs without `unit_weight`.
42. `coreboosting.rs:409` overwrites `len` at each unused output, so that the limit is the number of outputs after the
    first one used instead of the length of the run. The values are right nevertheless (`tot_entry`).
43. A soft clause of weight higher than that of its totalizer is counted with the weight of the totalizer
    (`coreboosting.rs:380-390`), and a gap in the outputs used panics (`coreboosting.rs:412`). The first cannot happen if
    MaxPre only removes soft clauses (`MpKeeps`); on the second C57 says nothing.
44. **C58** (proved, `preprocess_enumeration_counterexample`): with `--preprocessing` and solution enumeration, not all
    solutions of minimal costs are printed, since MaxPre may remove solutions as long as the costs are kept and each
    solution of the result is reconstructed to one. Neither the help text nor the driver warns of this.
45. **C60** (proved, `coreBoostCert_reset_panics`, `coreBoostInproCert_panics`): with `--proof-path` and core boosting with
    `--reset-after-cb` or `--inprocessing`, debug builds panic (`pminimal.rs:379`, `lowerbounding.rs:368`,
    `bioptsat.rs:310`, `coreboosting.rs:255`). The driver only refuses preprocessing and reindexing with a proof
    (`main.rs:143-166`). In release builds the oracle is replaced by one without tracer (`algs.rs:983-1013`), while the
    handle of the tracer of the old one is still used.
46. **C66** (proved, `cutBoost_reserve_counterexample`): `reset_oracle(true)` forgets all variables above `max_enc_var`
    (`algs.rs:1007-1010`), also those that have been reserved for the encodings (`reserve_enc_vars`). If core boosting
    ends between the reset and the point where the encodings are replaced (`lowerbounding.rs:354-390`, the same in the
    other algorithms), the old encodings still use these variables while new ones are handed out again. LowerBounding
    then returns `Done` with an incomplete front.
47. **C69** (proved, `cut_log_counterexample`): if the message about a non-dominated point fails (`algs.rs:718`, `:737`), the
    end of the routine is still logged before the error is returned (`algs.rs:720-721`, `:740-741`). If that fails as well, its
    error is returned instead of the first one.
48. **C71** (proved, `bioptsat_candidates_repeated`): BiOptSat considers candidates again. After a point is found, only the
    values of the second objective from its cost on are excluded (`bioptsat.rs`, the units before the next search), so the
    candidates of the linear search on the first objective may be ones that were seen before. This only costs time.
49. Lower-bounding makes one oracle call too many for each harvest: `alg_main` (`core/src/algs/lowerbounding.rs:295-330`) calls the oracle with the fence as assumptions, and if there is a solution, `harvest` (`:481-548`) starts with the same call again instead of using the solution. This only costs time. It is visible in the exact count of C72, where each harvest counts twice.

## Mutation tests

`seeded/LOG.jsonl` has one line per wrong program that was tried: the definition edited, the edit, the claim it breaks, the
theorems that failed, and the theorems that were tightened because they had survived. Lines with `survived` set are edits that
no theorem built for them ruled out; some of the last ones were only built against the modules named in their `note`.

## Axioms per theorem

As printed by `#print axioms`, for the theorems in `MANIFEST.json` (all in the namespace `Scuttle`).

* propext:
  `boost_logger_error_reported`, `cli_limits_pos`, `convertSolutions_map`, `convertSolutions_shape`,
  `convertSolutions_spec`, `coreBoostInproCert_panics`, `derived_unused_counterexample`,
  `objective_new_duplicate_counterexample`, `reindexer_forget_from_counterexample`,
  `reindexer_new_var_counterexample`, `resetOracle_refused`, `standsFor_front`
* propext, Quot.sound:
  `blockParetoMcs_spec`, `bound_remembered`, `cli_limits_respected`, `cli_stores_cnf`, `coreBoostCert_reset_panics`,
  `coreBoostCert_same_partial`, `coreBoost_refused`, `driver_front_unchanged`, `input_ids`, `interrupt_prompt`,
  `interrupt_sticky`, `limit_ends_at_once`, `limits_respected`, `lowerbounding_oracle_calls`,
  `maxPreInstance_counterexample`, `minimizeCore_unsorted_counterexample`, `nConstraints_eq`, `new_no_panic`,
  `objective_new_value`, `pminimal_oracle_calls`, `preParsed_front`, `reindexer_bijection`, `reindexer_combine_clash`,
  `reindexer_combine_keeps`, `reindexer_forget_keeps`, `reindexing_duplicates_counterexample`, `reindexing_none_iff`,
  `reindexing_wellFormed`, `reports_last`, `resetOracle_clauses`, `routines_nested`, `setUpRun_plain`,
  `sortLits_sorted`, `started_cnf`, `stats_agree`, `stats_instance`, `subMain_biOptSat_counterexample`,
  `toClausal_complete`, `toClausal_front`, `toClausal_origDetermines`, `toClausal_sound`, `toClausal_total`,
  `toClausal_wellFormed`
* propext, Classical.choice, Quot.sound:
  `accepted_covers`, `algorithms_agree`, `biOptSat_exact_front`, `bioptsat_candidates_repeated`,
  `bioptsat_first_point`, `bioptsat_left_to_right`, `bioptsat_oracle_calls`, `bioptsat_same_points`,
  `block_clause_accepted_partial`, `block_clause_buffered_counterexample`, `boosted_check_passes`, `boosts_again`,
  `boosts_solve`, `bos_bound_counterexample`, `bos_buffer_counterexample`, `bos_cut_accepted_partial`,
  `bos_final_contradiction`, `bound_defs`, `bounds_defined`, `calls_check_passes`, `candidates_attained`,
  `candidates_not_repeated`, `candidates_not_repeated_boosted`, `candidates_reached`, `cert_start`,
  `checkDominated_iff`, `cliLog_asked`, `cliLog_balanced`, `cliLog_mono`, `cliLog_opened`, `cliLog_routine`,
  `cli_coreBoost_no_error`, `cli_enumeration`, `cli_log_run`, `coreBoost_biOptSat_counterexample`,
  `coreBoost_biOptSat_partial`, `coreBoost_bioptsat_left_to_right`, `coreBoost_bioptsat_same_points`,
  `coreBoost_encodings`, `coreBoost_exact_front`, `coreBoost_false`, `coreBoost_ideal`, `coreBoost_reset_clauses`,
  `coreBoost_run_sound`, `coreBoost_terminates`, `coreBoost_unsat_panic`, `coreCon_exact`, `core_extended`,
  `cores_account`, `cores_lower`, `cubeImplCube_holds`, `cutBoost_counterexample`, `cutBoost_partial`,
  `cutBoost_reserve_counterexample`, `cut_log`, `cut_log_counterexample`, `cut_short`, `cut_short_exact`,
  `defaultBlockingClause_spec`, `default_goodBlocking`, `derived_exact`, `derived_implied`, `driver_calls_solve`,
  `driver_cut_short`, `driver_errors`, `driver_warnings`, `enumeration_complete`, `enumeration_limit`,
  `exhaust_first_trivial`, `exhaustion_not_reformulation`, `extendChecked_spec`, `fence_covered`,
  `fence_covered_boosted`, `fence_rises`, `fence_rises_boosted`, `fence_rises_calls`, `filterBase_core`,
  `frontText_injective`, `front_sound`, `ideal_true`, `implication_derived`, `improvements_true`,
  `inprocess_constant_counterexample`, `inprocess_counterexample`, `inprocess_front_partial`,
  `inprocess_given_equivalent`, `limit_zero_counterexample`, `linsu_base_counterexample`, `linsu_bound_accepted`,
  `linsu_bound_total`, `linsu_ends`, `linsu_optimum`, `linsu_output_order_counterexample`, `logText_quiet`,
  `log_agrees`, `logger_error_lost`, `logger_error_reported`, `logger_error_reported_partial`, `logger_no_influence`,
  `logger_same_call`, `lowerBounding_exact_front`, `maxPreInstance_spec`, `messages_true_boosted`,
  `minimization_improves`, `minimization_improves_boosted`, `minimization_improves_calls`, `minimizeCore_core`,
  `not_cut_log`, `not_cut_short`, `objective_new_form`, `oll_answer`, `oll_assumptions_optimal`, `oll_bound_logged`,
  `oll_lower_bound`, `oll_reformulation`, `oll_reformulation_exact`, `oppRun_rejected`, `orderGoal_is_order`,
  `order_is_pareto`, `order_reflexive`, `order_transitive`, `others_depend_on_oracle`, `others_not_left_to_right`,
  `parsed_front_exact`, `parserFor_infer_error`, `parserFor_infer_ok`, `permanent_block_rejected`,
  `pmcs_enumeration_counterexample`, `pmcs_enumeration_partial`, `pmin_cut_accepted`, `pmin_cut_goals_partial`,
  `pmin_cut_unit_weight`, `pminimal_exact_front`, `pminimal_oracle_calls_bounded`, `pol_implied`,
  `preprocess_enumeration_counterexample`, `preprocess_unused_counterexample`, `program_logger_error_reported`,
  `proof_reindex_refused`, `readFront_printed`, `readLog_printed`, `refCert_good`, `reification_accepted`,
  `reindexed_front_exact`, `reindexing_complete`, `reindexing_front`, `reindexing_front_counterexample`,
  `reindexing_front_internal`, `reindexing_pareto`, `reindexing_solution`, `repeated_solve_sound`,
  `reported_dominates_start`, `resume_bioptsat_duplicate_counterexample`, `resume_check_fails_counterexample`,
  `resume_dominated_counterexample`, `resume_enumeration_duplicate_counterexample`, `resume_exact_front_partial`,
  `resume_loses_point_counterexample`, `routines_nested_bioptsat_partial`, `routines_nested_counterexample`,
  `runAlg_cut_log`, `runAlg_logger_error_reported`, `rup_implied`, `solutions_attain`, `solve_check_passes`,
  `solve_done`, `solve_no_panic`, `solve_terminates`, `statsText_quiet`, `stats_agree_history`, `subMainPre_answers`,
  `subMainPre_ends`, `subMainPre_first_point`, `subMainPre_left_to_right`, `subMainPre_printed`,
  `subMainPre_same_points`, `subMain_answers`, `subMain_cut_short`, `subMain_ends`, `subMain_first_point`,
  `subMain_left_to_right`, `subMain_printed`, `subMain_read`, `subMain_reindexing_counterexample`,
  `subMain_same_points`, `temporary_block_accepted`, `tightened_candidate_counterexample`, `tightened_cost`,
  `tightened_solution`, `tightening_ends`, `tightening_never_counterexample`, `toClausal_empty_soft_panics`,
  `tracer_core`, `tracer_plain_panics`, `tracer_traced`, `trimCore_core`, `unsat_raises_fence`,
  `varManager_forget_from`, `varManager_fresh`, `whole_proof_accepted`, `whole_proof_checked`, `whole_proof_covers`,
  `whole_proof_front`, `whole_proof_points`
