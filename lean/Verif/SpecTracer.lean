import Verif.SpecProof
import Verif.Model.Tracer

/-!
# What the proof tracer relies on and what it keeps

Specification for the connection of a SAT solver that writes a proof with the rest of the program: which events the two may
produce, and what the tracer guarantees for them.
-/

namespace Scuttle.Spec

/-- The id of a clause that the solver was given or derived and has not removed. -/
def Known (dead : List Nat) (s : TracedSolver) (id : Nat) : Prop := 1 ≤ id ∧ id ≤ s.clauses.length ∧ id ∉ dead

/-- The clauses with some ids. -/
def antecedents (s : TracedSolver) (ids : List Nat) : List (List (Axm AnyVar)) :=
  (ids.filterMap fun i => s.clauses[i - 1]?).map fun c => c.map toAxm

/-- What is assumed of the solver when it derives a clause: there are antecedents, they are known, and going through them in
order by unit propagation leads to a conflict with the clause. Without hints in the proof, the clause has to result from
resolving the antecedents one after the other from the last to the first. -/
def Justified (cfg : TracerCfg) (dead : List Nat) (s : TracedSolver) (c : Clause) (ids : List Nat) : Prop :=
  ids ≠ [] ∧ (∀ i ∈ ids, Known dead s i) ∧ ((c.map toAxm).map Axm.var).Nodup ∧
    if cfg.rupHints then Propagates ((c.map toAxm).map Axm.not) (antecedents s ids)
    else (∀ d ∈ antecedents s ids, d.Nodup) ∧ Derives (antecedents s ids) (c.map toAxm)

/-- What is assumed of one event. The program adds clauses together with the id of a constraint in the proof that says
the same and that is not used for another clause, and does not remove constraints that the solver uses; the solver only
refers to clauses it was given or derived. -/
def Allowed (ord : (AnyVar → Bool) → (AnyVar → Bool) → Prop) (cfg : TracerCfg) (dead : List Nat) (s : TracedSolver) :
    TraceEvent → Prop
  | .cert c vid => (∃ con, s.tracer.proof.db.get vid = some con ∧ con.Same (clauseCon c)) ∧ vid ∉ s.tracer.cmap
  | .plain _ => False
  | .kernel st => StepOk ord s.tracer.proof.db st ∧ ∀ ids gs, st = .del ids gs → ∀ i ∈ ids, i ∉ s.tracer.cmap
  | .derived c _ ids => Justified cfg dead s c ids
  | .assumptionClause c ids => Justified cfg dead s c ids
  | .restore _ => True
  | .delete id red => red = true → Known dead s id
  | .strengthen id => Known dead s id
  | .weaken _ => True
  | .status unsat id => id > 0 → unsat = true ∧ Known dead s id
  | .assume _ => True
  | .resetAssumptions => True

/-- The ids of removed clauses after an event. -/
def deadAfter (dead : List Nat) : TraceEvent → List Nat
  | .delete id true => id :: dead
  | _ => dead

/-- What is assumed of a sequence of events: each one is allowed in the state it meets. -/
def AllowedAll (ord : (AnyVar → Bool) → (AnyVar → Bool) → Prop) (cfg : TracerCfg) :
    List Nat → TracedSolver → List TraceEvent → Prop
  | _, _, [] => True
  | dead, s, e :: es => Allowed ord cfg dead s e ∧
      ∀ s', s.event cfg e = some s' → AllowedAll ord cfg (deadAfter dead e) s' es

/-- The ids of removed clauses after a sequence of events. -/
def deadAfterAll (dead : List Nat) (es : List TraceEvent) : List Nat := es.foldl deadAfter dead

/-- What the tracer guarantees: each clause of the solver has its own constraint in the proof that says the same, and
every line of the proof is correct. -/
structure Traced (ord : (AnyVar → Bool) → (AnyVar → Bool) → Prop) (db₀ : ConDb AnyVar) (dead : List Nat)
    (s : TracedSolver) : Prop where
  length : s.tracer.cmap.length = s.clauses.length
  nodup : s.tracer.cmap.Nodup
  bound : ∀ vid ∈ s.tracer.cmap, vid ≤ s.tracer.proof.db.length
  found : ∀ id, Known dead s id → ∃ vid con c, s.tracer.mapId id = some vid ∧ s.tracer.proof.db.get vid = some con ∧
    s.clauses[id - 1]? = some c ∧ con.Same (clauseCon c)
  db : s.tracer.proof.db = s.tracer.proof.steps.foldl (fun db st => st.apply db) db₀
  accepted : Accepted ord db₀ s.tracer.proof.steps

end Scuttle.Spec
