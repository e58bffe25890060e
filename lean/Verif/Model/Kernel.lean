import Verif.Model.Monad

/-!
# The kernel

Models `/repo/core/src/algs.rs` without proof logging (`proof_stuff = None`) and without the features
`coarse-convergence` and `maxpre`. Phases given to the oracle (`phase_solution`, `unphase_solution`)
are hints without effect on the contract of the oracle; only the `unwrap` of `unphase_solution` is kept.
-/

namespace Scuttle

variable {P C : Type}

/-! ## Logging and early termination -/

/-- Sends a message to the logger if there is one (`if let Some(logger) = &mut self.logger { .. }?`), e.g.
`/repo/core/src/algs.rs:398-402`. -/
def logEvent (e : LogEvent) : M P C Unit := fun env s =>
  match s.io.logger with
  | none => (.ok (), s)
  | some l =>
    if env.logOk s.io.tick then
      (.ok (), { s with io := { s.io with logger := some (l ++ [e]), tick := s.io.tick + 1 } })
    else (.error .error, { s with io := { s.io with tick := s.io.tick + 1 } })

/-- Largest `usize` on a 64 bit machine. -/
def usizeMax : Nat := 2 ^ 64 - 1

/-- Largest `isize` on a 64 bit machine. -/
def isizeMax : Nat := 2 ^ 63 - 1

/-- `*x -= 1; if *x == 0` on an optional limit, e.g. `/repo/core/src/algs.rs:404-409`: new limit and whether it is
used up. Subtracting from 0 panics in a debug build (`none`) and wraps around in a release build. -/
def countDown (debug : Bool) : Option Nat → Option (Option Nat × Bool)
  | none => some (none, false)
  | some 0 => if debug then none else some (some usizeMax, false)
  | some (n + 1) => some (some n, n == 0)

/-- Applies `countDown` to one of the limits and terminates if it is used up. -/
def stepLimit (get : Limits → Option Nat) (set : Option Nat → Limits → Limits) (t : Termination) : M P C Unit :=
  fun env s =>
    match countDown env.debug (get s.io.lims) with
    | none => (.error .panic, s)
    | some (l, hit) =>
      let s' := { s with io := { s.io with lims := set l s.io.lims } }
      if hit then (.error (.terminated t), s') else (.ok (), s')

/-- Changes the statistics. -/
def bumpStats (f : Stats → Stats) : M P C Unit := modifyS fun s => { s with io := { s.io with stats := f s.io.stats } }

/-- `Kernel::check_termination`, `/repo/core/src/algs.rs:385-391`. -/
def checkTermination : M P C Unit := fun env s =>
  let s' := { s with io := { s.io with tick := s.io.tick + 1 } }
  if env.flag s.io.tick then (.error (.terminated .interrupted), s') else (.ok (), s')

/-- `Kernel::log_candidate`, `/repo/core/src/algs.rs:394-411`. -/
def logCandidate (costs : List Nat) (phase : Phase) : M P C Unit := do
  let s ← getS
  dbg (costs.length == s.io.stats.nObjs)
  bumpStats fun st => { st with nCandidates := st.nCandidates + 1 }
  logEvent (.candidate costs phase)
  stepLimit (·.candidates) (fun l ls => { ls with candidates := l }) .candidatesLimit

/-- `Kernel::log_oracle_call`, `/repo/core/src/algs.rs:414-428`. -/
def logOracleCall (res : SolverResult) : M P C Unit := do
  bumpStats fun st => { st with nOracleCalls := st.nOracleCalls + 1 }
  logEvent (.oracleCall res)
  stepLimit (·.oracleCalls) (fun l ls => { ls with oracleCalls := l }) .oracleCallsLimit

/-- `Kernel::log_solution`, `/repo/core/src/algs.rs:431-445`. -/
def logSolution : M P C Unit := do
  bumpStats fun st => { st with nSolutions := st.nSolutions + 1 }
  logEvent .solution
  stepLimit (·.sols) (fun l ls => { ls with sols := l }) .solsLimit

/-- `Kernel::log_non_dominated`, `/repo/core/src/algs.rs:448-464`. -/
def logNonDominated (p : NonDomPoint Assignment) : M P C Unit := do
  bumpStats fun st => { st with nNonDominated := st.nNonDominated + 1 }
  logEvent (.nonDominated p)
  stepLimit (·.pps) (fun l ls => { ls with pps := l }) .ppLimit

/-- `Kernel::log_routine_start`, `/repo/core/src/algs.rs:484-491`. -/
def logRoutineStart (desc : String) : M P C Unit := logEvent (.routineStart desc)

/-- `Kernel::log_routine_end`, `/repo/core/src/algs.rs:493-500`. -/
def logRoutineEnd : M P C Unit := logEvent .routineEnd

/-- `Kernel::start_solving`, `/repo/core/src/algs.rs:325-328`. -/
def startSolving (limits : Limits) : M P C Unit := modifyS fun s =>
  { s with io := { s.io with lims := limits, stats := { s.io.stats with nSolveCalls := s.io.stats.nSolveCalls + 1 } } }

/-! ## The oracle -/

/-- `oracle.solve_assumps` (and `oracle.solve` for no assumptions): the answer determines the state of the oracle. -/
def oracleSolve (assumps : List Lit) : M P C SolverResult := fun env s =>
  let io := { s.io with tick := s.io.tick + 1, calls := s.io.calls ++ [s.io.tick] }
  match env.oracle s.io.tick s.k.conflLimited s.k.db assumps with
  | .sat m => (.ok .sat, { s with k := { s.k with ostate := .sat m }, io := io })
  | .unsat core => (.ok .unsat, { s with k := { s.k with ostate := .unsat core }, io := io })
  | .interrupted => (.ok .interrupted, { s with k := { s.k with ostate := .unknown }, io := io })

/-- `oracle.add_clause`: the clause is added and the solution or core of the last call is gone. -/
def addClause (c : Clause) : M P C Unit :=
  modifyS fun s => { s with k := { s.k with db := s.k.db ++ [c], ostate := .input } }

/-- `oracle.add_clause` for each clause in turn. -/
def addClauses : List Clause → M P C Unit
  | [] => M.pure ()
  | c :: cs => do addClause c; addClauses cs

/-- `oracle.solution(self.var_manager.max_var().unwrap())`, e.g. `/repo/core/src/algs.rs:804`. -/
def oracleSolution : M P C Assignment := do
  let s ← getS
  let v ← unwrap s.k.vm.maxVar
  match s.k.ostate with
  | .sat m => M.pure (Assignment.ofModel m (v + 1))
  | _ => stop .error

/-- `oracle.core()?`, e.g. `/repo/core/src/algs/lowerbounding.rs:305`. -/
def oracleCore : M P C (List Lit) := do
  let s ← getS
  match s.k.ostate with
  | .unsat core => M.pure core
  | _ => stop .error

/-- `Kernel::solve_assumps`, `/repo/core/src/algs.rs:965-972`. -/
def solveAssumps (assumps : List Lit) : M P C SolverResult := do
  logRoutineStart "oracle call"
  let res ← oracleSolve assumps
  logRoutineEnd
  checkTermination
  logOracleCall res
  M.pure res

/-- `Kernel::solve`, `/repo/core/src/algs.rs:954-961`. -/
def solveNoAssumps : M P C SolverResult := solveAssumps []

/-- `var_manager.new_var()`. -/
def freshVar : M P C Nat := fun _ s =>
  (.ok s.k.vm.newVar.1, { s with k := { s.k with vm := s.k.vm.newVar.2 } })

/-! ## Costs -/

/-- Internal costs of a solution: `get_cost_with_heuristic_improvements` without `sol-tightening`,
`/repo/core/src/algs.rs:594-609`, for each objective. -/
def Kern.costsOf (k : Kern) (sol : Assignment) : List Nat := k.objs.map fun o => o.costOf sol

/-- `get_cost_with_heuristic_improvements` for one objective without tightening, `/repo/core/src/algs.rs:535-584` and
`:594-609`. -/
def getCost (i : Nat) (sol : Assignment) : M P C Nat := do
  let s ← getS
  let o ← unwrap s.k.objs[i]?
  M.pure (o.costOf sol)

/-- Variables that are frozen in the oracle, `/repo/core/src/algs.rs:289-295`, `:1000-1006`. -/
def Kern.frozen (k : Kern) : List Nat := k.objs.flatMap fun o => o.iter.map fun p => p.1.var

/-- `obj_lit_data.contains_key(l)`, with the literals recorded in `/repo/core/src/algs.rs:256-288`. -/
def Kern.inObjs (k : Kern) (l : Lit) : Bool := k.objs.any fun o => o.iter.any fun p => p.1 == l

/-- `oracle.flip_lit(l)?`, an error unless the last answer was a model. -/
def flipLit (l : Lit) : M P C Bool := fun env s =>
  match s.k.ostate with
  | .sat m =>
    match env.flip s.io.tick s.k.db s.k.frozen m l with
    | some m' => (.ok true, { s with k := { s.k with ostate := .sat m' } })
    | none => (.ok false, s)
  | _ => (.error .error, s)

/-- A literal of an objective is flipped unless its negation is in an objective, `/repo/core/src/algs.rs:558-562`. -/
def tryFlip (l : Lit) : M P C Bool := do
  let s ← getS
  if s.k.inObjs l.not then M.pure false else flipLit l.not

/-- Reads whether `sol-tightening` is compiled in. -/
def hasTightening : M P C Bool := fun env s => (.ok env.tighten, s)

/-- The loop of `get_cost_with_heuristic_improvements` with tightening, `/repo/core/src/algs.rs:556-570`: `cost`,
`reduction` and the changed solution. -/
def tightenLoop : List (Lit × Nat) → Assignment → M P C (Nat × Nat × Assignment)
  | [], sol => M.pure (0, 0, sol)
  | (l, w) :: ps, sol =>
    if sol.litValue l = .tt then do
      let flipped ← tryFlip l
      if flipped then do
        let r ← tightenLoop ps (sol.assignLit l.not)
        M.pure (r.1, r.2.1 + w, r.2.2)
      else do
        let r ← tightenLoop ps sol
        M.pure (r.1 + w, r.2.1, r.2.2)
    else tightenLoop ps sol

/-- The solution is read again from the oracle if the cost was reduced, `/repo/core/src/algs.rs:571-577`: `cost`,
`reduction` and the changed solution are given. -/
def rereadSol (o : Objective) (r : Nat × Nat × Assignment) : M P C Assignment :=
  if r.2.1 > 0 then
    if r.2.2.isEmpty then stop .panic
    else do
      let s ← getS
      match s.k.ostate with
      | .sat m => do
        dbg (o.costOf (Assignment.ofModel m r.2.2.length) == r.1)
        M.pure (Assignment.ofModel m r.2.2.length)
      | _ => stop .error
  else M.pure r.2.2

/-- `get_cost_with_heuristic_improvements` for one objective: with `sol-tightening`, `/repo/core/src/algs.rs:535-584`
(without inprocessing, and with the debug assertion on the index left to the indexing), and without,
`/repo/core/src/algs.rs:594-609`. -/
def getCostTight (i : Nat) (sol : Assignment) (tightening : Bool) : M P C (Nat × Assignment) := do
  let feature ← hasTightening
  if feature && tightening then do
    let s ← getS
    let o ← unwrap s.k.objs[i]?
    let r ← tightenLoop o.iter sol
    let sol ← rereadSol o r
    logEvent (.heurImprovement i (r.1 + r.2.1) r.1)
    M.pure (r.1, sol)
  else do
    let c ← getCost i sol
    M.pure (c, sol)

/-- The costs of `n` objectives from index `i` on, each computed on the solution that the previous one left,
`/repo/core/src/algs.rs:805-807`. -/
def tightCosts (tightening : Bool) : Nat → Nat → Assignment → M P C (List Nat × Assignment)
  | 0, _, sol => M.pure ([], sol)
  | n + 1, i, sol => do
    let r ← getCostTight i sol tightening
    let rest ← tightCosts tightening n (i + 1) r.2
    M.pure (r.1 :: rest.1, rest.2)

/-- `Kernel::get_solution_and_internal_costs`, `/repo/core/src/algs.rs:800-810`. -/
def getSolutionAndCosts (tightening : Bool) : M P C (List Nat × Assignment) := do
  let sol ← oracleSolution
  let s ← getS
  let r ← tightCosts tightening s.k.objs.length 0 sol
  dbg (r.1.length == s.io.stats.nObjs)
  M.pure r

/-- One entry of `externalize_internal_costs`, `/repo/core/src/algs.rs:346-365`; `none` is a panic. Overflow of
`cst * unit_weight` and of the addition of the offset are not modelled. -/
def externalizeOne (debug : Bool) : Objective → Nat → Option Int
  | .weighted off .., c => if c ≤ isizeMax then some (c + off) else none
  | .unweighted off w .., c => if c * w ≤ isizeMax then some ((c * w : Nat) + off) else none
  | .constant off .., c => if debug && c != 0 then none else some off

/-- Loop of `externalize_internal_costs`: the cost with index `idx` belongs to the objective with that index. -/
def externalizeLoop (debug : Bool) : List Objective → List Nat → Option (List Int)
  | _, [] => some []
  | [], _ :: _ => none
  | o :: os, c :: cs => do
    let x ← externalizeOne debug o c
    let xs ← externalizeLoop debug os cs
    some (x :: xs)

/-- `Kernel::externalize_internal_costs`, `/repo/core/src/algs.rs:341-367`. -/
def externalize (costs : List Nat) : M P C (List Int) := do
  let s ← getS
  dbg (costs.length == s.io.stats.nObjs)
  let d ← isDebug
  unwrap (externalizeLoop d s.k.objs costs)

/-! ## Enumeration -/

/-- `Clause::normalize` of `rustsat`: duplicates are removed, tautologies give `None`. The order of the literals is not
modelled. -/
def normalizeClause (c : Clause) : Option Clause :=
  if c.any (fun l => c.contains l.not) then none else some c.eraseDups

/-- Literals collected by `block_pareto_mcs`, `/repo/core/src/algs.rs:371-378`. -/
def mcsLits (objs : List Objective) (sol : Assignment) : Clause :=
  objs.flatMap fun o => o.iter.filterMap fun p => if sol.litValue p.1 = .tt then some p.1.not else none

/-- `Kernel::block_pareto_mcs`, `/repo/core/src/algs.rs:370-382`; `none` is the `expect` for a tautology. -/
def blockParetoMcs (objs : List Objective) (sol : Assignment) : Option Clause := normalizeClause (mcsLits objs sol)

/-- `default_blocking_clause`, `/repo/core/src/algs.rs:1017-1019`. -/
def defaultBlockingClause (sol : Assignment) : Clause := sol.toLits.map Lit.not

/-- Adds the blocking clause for the last solution, `/repo/core/src/algs.rs:722-729`. -/
def blockSolution (sol : Assignment) : M P C Unit := do
  let s ← getS
  match s.k.opts.enumeration with
  | .solutions _ => addClause (s.k.bcg sol)
  | .pmcss _ => do
    let c ← unwrap (blockParetoMcs s.k.objs sol)
    addClause c
  | .noEnum => stop .panic

/-- Whether enumeration at a non-dominated point ends after `n` solutions, `/repo/core/src/algs.rs:708-713`. -/
def enumDone (e : EnumOptions) (n : Nat) : Bool :=
  match e with
  | .noEnum => true
  | .solutions (some limit) => n ≥ limit
  | .pmcss (some limit) => n ≥ limit
  | _ => false

/-- `collector.extend([non_dominated])` with the Pareto front as collector, `/repo/core/src/types.rs:99-135`. -/
def collect (p : NonDomPoint Assignment) : M P C Unit := modifyS fun s => { s with front := s.front ++ [p] }

/-- `Kernel::unphase_solution`, `/repo/core/src/algs.rs:632-640`. -/
def unphaseSolution : M P C Unit := do
  let s ← getS
  if s.k.opts.solutionGuidedSearch then do
    let _ ← unwrap s.k.vm.maxVar
    M.pure ()
  else M.pure ()

/-- Body of the loop of `yield_solutions`, `/repo/core/src/algs.rs:682-745`. -/
def yieldBody (costs : List Nat) (assumps : List Lit) (st : NonDomPoint Assignment × Assignment) :
    M P C ((NonDomPoint Assignment × Assignment) ⊕ Unit) := do
  let s ← getS
  dbg (s.k.costsOf st.2 == costs)
  let solution := st.2.truncate s.k.vm.maxOrigVar
  let nd := st.1.addSol solution
  match ← attempt logSolution with
  | .error e => do
    let ndTerm ← attempt (logNonDominated nd)
    collect nd
    ofExcept ndTerm
    stop e
  | .ok () =>
    if enumDone s.k.opts.enumeration nd.nSols then do
      let ppTerm ← attempt (logNonDominated nd)
      collect nd
      logRoutineEnd
      ofExcept ppTerm
      M.pure (.inr ())
    else do
      checkTermination
      blockSolution solution
      let res ← solveAssumps assumps
      if res = .unsat then do
        let ppTerm ← attempt (logNonDominated nd)
        collect nd
        logRoutineEnd
        ofExcept ppTerm
        M.pure (.inr ())
      else do
        checkTermination
        let sol ← oracleSolution
        M.pure (.inl (nd, sol))

/-- `Kernel::yield_solutions`, `/repo/core/src/algs.rs:668-746`. -/
def yieldSolutions (fuel : Nat) (costs : List Nat) (assumps : List Lit) (sol : Assignment) : M P C Unit := do
  let s ← getS
  dbg (costs.length == s.io.stats.nObjs)
  logRoutineStart "yield solutions"
  unphaseSolution
  let ext ← externalize costs
  loopM (yieldBody costs assumps) fuel (NonDomPoint.new ext, sol)

/-! ## Encodings and linear search -/

variable [UbEnc P] [UbEnc C]

/-- The encoding with index `i`; indexing panics if there is none. -/
def encAt (i : Nat) : M P C (ObjEnc P C) := do
  let s ← getS
  unwrap s.encs[i]?

/-- `Kernel::extend_encoding`, `/repo/core/src/algs.rs:919-944` (last case), for the encoding with index `i`. -/
def extendEncoding (i lo hi : Nat) : M P C Unit := do
  let s ← getS
  let e ← encAt i
  let r := e.encodeUbChange lo hi s.k.vm.nextVar
  modifyS fun s =>
    { s with
      encs := s.encs.set i r.1
      k := { s.k with
        db := s.k.db ++ r.2.1
        vm := { s.k.vm with nextVar := r.2.2 }
        ostate := if r.2.1.isEmpty then s.k.ostate else .input } }

/-- Body of the loop of `linsu`, `/repo/core/src/algs.rs:851-903`. Falling out of the loop and the early return in the
satisfiable case have the same effect without proof logging. -/
def linsuBody (oi ei : Nat) (base : List Lit) (lb : Nat) (st : Nat × Option Assignment) :
    M P C ((Nat × Option Assignment) ⊕ (Nat × Option Assignment)) :=
  if st.1 > lb then do
    extendEncoding ei (st.1 - 1) (st.1 - 1 + 1)
    let e ← encAt ei
    let ls ← unwrap (e.enforceUb (st.1 - 1))
    match ← solveAssumps (base ++ ls) with
    | .sat => do
      let sol ← oracleSolution
      let newCost ← getCost oi sol
      dbg (decide (newCost < st.1))
      let s ← getS
      logCandidate (s.k.costsOf sol) .linsu
      M.pure (.inl (newCost, some sol))
    | .unsat => M.pure (.inr st)
    | .interrupted => stop .panic
  else M.pure (.inr st)

/-- End of `linsu` after the loop, `/repo/core/src/algs.rs:906-916`. -/
def linsuFinish (ei : Nat) (base : List Lit) (st : Nat × Option Assignment) : M P C (Nat × Assignment) :=
  match st.2 with
  | some sol => do
    logRoutineEnd
    M.pure (st.1, sol)
  | none => do
    extendEncoding ei st.1 (st.1 + 1)
    let e ← encAt ei
    let ls ← unwrap (e.enforceUb st.1)
    let res ← solveAssumps (base ++ ls)
    dbg (res == .sat)
    let sol ← oracleSolution
    logRoutineEnd
    M.pure (st.1, sol)

/-- `Kernel::linsu`, `/repo/core/src/algs.rs:819-917`, with `oi` the index of the objective and `ei` the index of the
encoding. The value is `none` if there is no solution. -/
def linsu (fuel oi ei : Nat) (base : List Lit) (ub : Option (Nat × Option Assignment)) (lb : Option Nat) :
    M P C (Option (Nat × Assignment)) := do
  logRoutineStart "linsu"
  match ub with
  | some bound => do
    let st ← loopM (linsuBody oi ei base (lb.getD 0)) fuel bound
    let r ← linsuFinish ei base st
    M.pure (some r)
  | none => do
    let res ← solveAssumps base
    if res = .unsat then do
      logRoutineEnd
      M.pure none
    else do
      let sol ← oracleSolution
      let (cost, sol) ← getCostTight oi sol true
      let st ← loopM (linsuBody oi ei base (lb.getD 0)) fuel (cost, some sol)
      let r ← linsuFinish ei base st
      M.pure (some r)

/-- `Kernel::linsu_yield`, `/repo/core/src/algs.rs:757-788`. -/
def linsuYield (fuel oi ei : Nat) (base : List Lit) (ub : Option (Nat × Option Assignment)) (lb : Option Nat) :
    M P C (Option (Nat × Assignment)) := do
  match ← linsu fuel oi ei base ub lb with
  | none => M.pure none
  | some (cost, sol) => do
    let s ← getS
    let costs := s.k.costsOf sol
    dbg (costs[oi]? == some cost)
    extendEncoding ei cost (cost + 1)
    let e ← encAt ei
    let ls ← unwrap (e.enforceUb cost)
    yieldSolutions fuel costs (base ++ ls) sol
    M.pure (some (cost, sol))

/-- `Kernel::reset_oracle`, `/repo/core/src/algs.rs:983-1013`. -/
def resetOracle (includeVarManager : Bool) : M P C Unit := do
  let s ← getS
  if s.k.opts.storeCnf then do
    logRoutineStart "reset-oracle"
    if includeVarManager then M.pure ()
    else do
      let _ ← unwrap s.k.vm.maxVar
      M.pure ()
    let cnf ← unwrap s.k.origCnf
    modifyS fun s => { s with k := { s.k with
      db := cnf
      ostate := .input
      conflLimited := false
      vm := if includeVarManager then s.k.vm.forgetFrom (s.k.vm.maxEncVar + 1) else s.k.vm } }
    logRoutineEnd
  else stop .error

/-! ## Construction -/

/-- `Kernel::new`, `/repo/core/src/algs.rs:218-318`; `none` is the `unwrap` of `max_var`. -/
def Kern.new (clauses : List Clause) (objs : List Objective) (vm : VarManager) (bcg : Assignment → Clause)
    (opts : KernelOptions) : Option (Kern × Io) :=
  match vm.maxVar with
  | none => none
  | some _ => some
    ({ db := clauses, ostate := .input, conflLimited := false, objs := objs
       origCnf := if opts.storeCnf then some clauses else none
       bcg := bcg, opts := opts, vm := vm },
     { stats := { nOrigClauses := clauses.length, nObjs := objs.length
                  nRealObjs := objs.foldl (fun cnt o => if o.isConstant then cnt else cnt + 1) 0 }
       lims := Limits.none, logger := none, tick := 0, calls := [] })

/-- Encoding of one objective, `/repo/core/src/algs/pminimal.rs:225-237`. -/
def initEnc (reserve : Bool) (o : Objective) (n : Nat) : ObjEnc P C × Nat :=
  match o with
  | .weighted _ lits _ _ => ObjEnc.newWeighted lits reserve n
  | .unweighted _ _ lits _ _ => ObjEnc.newUnweighted lits reserve n
  | .constant .. => (.constant, n)

/-- Encodings of all objectives, `/repo/core/src/algs/pminimal.rs:222-238`. -/
def initEncs (reserve : Bool) : List Objective → Nat → List (ObjEnc P C) × Nat
  | [], n => ([], n)
  | o :: os, n =>
    let r := initEnc reserve o n
    let rs := initEncs reserve os r.2
    (r.1 :: rs.1, rs.2)

/-- `init` of `PMinimal` (`/repo/core/src/algs/pminimal.rs:220-244`) and of `LowerBounding`
(`/repo/core/src/algs/lowerbounding.rs:224-251`). -/
def Slv.init (k : Kern) (io : Io) : Slv P C :=
  let r := initEncs (P := P) (C := C) k.opts.reserveEncVars k.objs k.vm.nextVar
  { k := { k with vm := { k.vm with nextVar := r.2 } }, io := io, encs := r.1, front := [], fence := [] }

/-- Construction of a solver from an instance, `/repo/core/src/algs.rs:218-318` followed by `init`. -/
def Slv.new (inst : Instance) (bcg : Assignment → Clause) (opts : KernelOptions) : Option (Slv P C) :=
  (Kern.new inst.clauses inst.objs inst.vm bcg opts).map fun p => Slv.init p.1 p.2

end Scuttle
