import Verif.Model.Pb

/-!
# The proof tracer for CaDiCaL

Models `/repo/cadical-veripb-tracer/src/lib.rs`, with and without its default feature `rup-hints`, without `verbose`.
Failing to write to the proof file is not modelled.
-/

namespace Scuttle

/-- How the tracer is built: with debug assertions, and with the feature `rup-hints`,
`/repo/cadical-veripb-tracer/src/lib.rs:244`. -/
structure TracerCfg where
  debug : Bool
  rupHints : Bool
  deriving DecidableEq, Repr

/-- `CadicalTracer`, `/repo/cadical-veripb-tracer/src/lib.rs:14-24`, with `ConstraintMapper` (`:263-265`) as a list. The
proof is there whenever the solver runs. `conclusion` is the id given to `update_default_conclusion` (`:173-180`). -/
structure Tracer where
  proof : Pf AnyVar
  cmap : List Nat
  coreId : Option Nat
  weakened : List Nat
  assumptions : List Lit
  conclusion : Option Nat

namespace Tracer

/-- `CadicalTracer::new`, `/repo/cadical-veripb-tracer/src/lib.rs:27-35`. -/
def new (p : Pf AnyVar) : Tracer := ⟨p, [], none, [], [], none⟩

/-- `ConstraintMapper::map`, `/repo/cadical-veripb-tracer/src/lib.rs:277-279`; `none` is a panic. -/
def mapId (t : Tracer) (id : Nat) : Option Nat := if id = 0 then none else t.cmap[id - 1]?

/-- The derivation in `write_derived` without `rup-hints`, `/repo/cadical-veripb-tracer/src/lib.rs:249-258`, for the ids
of the antecedents; `none` is the panic without antecedents. -/
def derivedOps (ids : List Nat) : Option Ops :=
  match ids.reverse with
  | [] => none
  | first :: rest => some (rest.foldl (fun der id => .saturate (.add der (.id (.abs id)))) (.id (.abs first)))

/-- `write_derived`, `/repo/cadical-veripb-tracer/src/lib.rs:234-260`: the line that is written; `none` is a panic. -/
def derivedStep (cfg : TracerCfg) (c : Clause) (ids : List Nat) : Option (ProofStep AnyVar) :=
  if cfg.rupHints then some (.rup (clauseCon c) (ids.map .abs)) else (derivedOps ids).map .pol

/-- `CadicalTracer::add_derived`, `/repo/cadical-veripb-tracer/src/lib.rs:61-86`; `none` is a panic. -/
def addDerived (cfg : TracerCfg) (t : Tracer) (id : Nat) (redundant : Bool) (c : Clause) (antecedents : List Nat) :
    Option (Nat × Tracer) :=
  if cfg.debug && antecedents.isEmpty then none
  else do
    let ids ← antecedents.mapM t.mapId
    let step ← derivedStep cfg c ids
    let (vid, proof) := t.proof.push step
    let cmap := t.cmap ++ [vid]
    if cmap.length ≠ id then none
    else
      let proof := if redundant then proof else proof.write (.core [vid])
      some (vid, { t with proof := proof, cmap := cmap })

/-- `add_original_clause`, `/repo/cadical-veripb-tracer/src/lib.rs:93-117`; `none` is a panic. -/
def addOriginal (debug : Bool) (t : Tracer) (id : Nat) (restored : Bool) : Option Tracer :=
  if restored then some t
  else if debug && decide (id ≠ t.cmap.length) then none
  else do
    let vid ← t.mapId id
    if vid ≥ t.proof.firstProofId then some { t with proof := t.proof.write (.core [vid]) } else some t

/-- `delete_clause`, `/repo/cadical-veripb-tracer/src/lib.rs:129-142`; `none` is a panic. -/
def deleteClause (t : Tracer) (id : Nat) (redundant : Bool) : Option Tracer :=
  if !redundant then some t
  else do
    let vid ← t.mapId id
    some { t with proof := t.proof.write (.del [vid] []) }

/-- `strengthen`, `/repo/cadical-veripb-tracer/src/lib.rs:144-150`; `none` is a panic. -/
def strengthen (t : Tracer) (id : Nat) : Option Tracer := do
  let vid ← t.mapId id
  some { t with proof := t.proof.write (.core [vid]) }

/-- `weaken_minus`, `/repo/cadical-veripb-tracer/src/lib.rs:152-154`. -/
def weakenMinus (t : Tracer) (id : Nat) : Tracer := { t with weakened := id :: t.weakened }

/-- `report_status`, `/repo/cadical-veripb-tracer/src/lib.rs:156-186`; `none` is a panic. -/
def reportStatus (debug : Bool) (t : Tracer) (unsat : Bool) (id : Nat) : Option Tracer :=
  if id > 0 then do
    let vid ← t.mapId id
    if debug && !unsat then none else some { t with conclusion := some vid }
  else some t

/-- `add_assumption`, `/repo/cadical-veripb-tracer/src/lib.rs:208-210`. -/
def addAssumption (t : Tracer) (l : Lit) : Tracer := { t with assumptions := t.assumptions ++ [l] }

/-- `reset_assumptions`, `/repo/cadical-veripb-tracer/src/lib.rs:212-214`. -/
def resetAssumptions (t : Tracer) : Tracer := { t with assumptions := [] }

/-- `add_assumption_clause`, `/repo/cadical-veripb-tracer/src/lib.rs:216-231`; `none` is a panic. -/
def addAssumptionClause (cfg : TracerCfg) (t : Tracer) (id : Nat) (c : Clause) (antecedents : List Nat) :
    Option Tracer := do
  let (vid, t) ← t.addDerived cfg id true c antecedents
  some { t with coreId := some vid }

/-- `ConstraintMapper::add_clause`, `/repo/cadical-veripb-tracer/src/lib.rs:268-270`. -/
def addClause (t : Tracer) (vid : Nat) : Tracer := { t with cmap := t.cmap ++ [vid] }

end Tracer

/-! ## The solver and its tracer -/

/-- What can happen between the program, the solver and the tracer. `cert` and `plain` are the two ways of
`CadicalCertCollector` to add a clause, `/repo/cadical-veripb-tracer/src/lib.rs:312-320`, `:336-338`; `kernel` is a line
that the rest of the program writes to the proof; the others are what CaDiCaL reports to the tracer. -/
inductive TraceEvent where
  | cert (c : Clause) (vid : Nat)
  | plain (c : Clause)
  | kernel (s : ProofStep AnyVar)
  | derived (c : Clause) (redundant : Bool) (antecedents : List Nat)
  | assumptionClause (c : Clause) (antecedents : List Nat)
  | restore (id : Nat)
  | delete (id : Nat) (redundant : Bool)
  | strengthen (id : Nat)
  | weaken (id : Nat)
  | status (unsat : Bool) (id : Nat)
  | assume (l : Lit)
  | resetAssumptions
  deriving DecidableEq, Repr

/-- The solver as far as the tracer sees it: the clauses that got an id, from id 1 on. CaDiCaL gives ids in turn to
original, derived and assumption clauses; a restored clause keeps its id. -/
structure TracedSolver where
  clauses : List Clause
  tracer : Tracer

/-- One event; `none` is a panic of the tracer. -/
def TracedSolver.event (cfg : TracerCfg) (s : TracedSolver) : TraceEvent → Option TracedSolver
  | .cert c vid => do
    let t ← (s.tracer.addClause vid).addOriginal cfg.debug (s.clauses.length + 1) false
    some ⟨s.clauses ++ [c], t⟩
  | .plain c => do
    let t ← s.tracer.addOriginal cfg.debug (s.clauses.length + 1) false
    some ⟨s.clauses ++ [c], t⟩
  | .kernel st => some { s with tracer := { s.tracer with proof := s.tracer.proof.write st } }
  | .derived c r as => do
    let (_, t) ← s.tracer.addDerived cfg (s.clauses.length + 1) r c as
    some ⟨s.clauses ++ [c], t⟩
  | .assumptionClause c as => do
    let t ← s.tracer.addAssumptionClause cfg (s.clauses.length + 1) c as
    some ⟨s.clauses ++ [c], t⟩
  | .restore id => (s.tracer.addOriginal cfg.debug id true).map fun t => { s with tracer := t }
  | .delete id r => (s.tracer.deleteClause id r).map fun t => { s with tracer := t }
  | .strengthen id => (s.tracer.strengthen id).map fun t => { s with tracer := t }
  | .weaken id => some { s with tracer := s.tracer.weakenMinus id }
  | .status u id => (s.tracer.reportStatus cfg.debug u id).map fun t => { s with tracer := t }
  | .assume l => some { s with tracer := s.tracer.addAssumption l }
  | .resetAssumptions => some { s with tracer := s.tracer.resetAssumptions }

/-- Several events. -/
def TracedSolver.run (cfg : TracerCfg) : List TraceEvent → TracedSolver → Option TracedSolver
  | [], s => some s
  | e :: es, s => (s.event cfg e).bind (TracedSolver.run cfg es)

end Scuttle
