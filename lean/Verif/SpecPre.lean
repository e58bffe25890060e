import Verif.SpecCli
import Verif.SpecInpro
import Verif.Model.CliPre

/-!
# Specification of preprocessing
-/

namespace Scuttle.Spec

open Scuttle

/-- For each objective its offset and the weights of the violated soft clauses. -/
def costsOf (objs : List SoftObj) (s : Asg) : List Int := objs.map fun o => o.offset + softCost s o.softs

/-- What is assumed of MaxPre on an instance. A solution of the result is reconstructed to one of the instance that is not
worse: variables without value may have either value, before and after. Each solution of the instance has one of the
result that is not worse. -/
structure PreKeeps (pre : PrePro) (cnf : List Clause) (objs : List SoftObj) : Prop where
  units : UnitSofts (pre.run cnf objs).2
  num : (pre.run cnf objs).2.length = objs.length
  sound : ∀ x v, (∀ t, Extends t x → Satisfies t (pre.run cnf objs).1 ∧ costsOf (pre.run cnf objs).2 t = v) →
    ∀ u, Extends u (pre.reconstruct cnf objs x) → Satisfies u cnf ∧ WeaklyDominates (costsOf objs u) v
  complete : ∀ u, Satisfies u cnf →
    ∃ t, Satisfies t (pre.run cnf objs).1 ∧ WeaklyDominates (costsOf (pre.run cnf objs).2 t) (costsOf objs u)

/-- Clauses and soft clauses as a parsed instance over the variables up to `n`. -/
def asParsed (cnf : List Clause) (objs : List SoftObj) (n : Nat) : Parsed :=
  ⟨cnf.map PbCon.ofClause, objs, ⟨n + 1, n, n⟩⟩

/-- What MaxPre returns for the clauses and soft clauses of a parsed instance. -/
def preParsed (enc : PbCon → Nat → List Clause × Nat) (pre : PrePro) (p : Parsed) : Parsed :=
  asParsed (pre.run (preClauses enc p) p.objs).1 (pre.run (preClauses enc p) p.objs).2
    (maxVarOf (pre.run (preClauses enc p) p.objs).1)

/-- All solutions of minimal costs are printed. -/
def PrintedSolutions (p : Parsed) (front : ParetoFront Assignment) : Prop :=
  ∀ s, ParsedFeasible p s → ParsedNonDominated p (parsedCosts p s) → ∃ pt ∈ front, ∃ x ∈ pt.sols, Extends s x

end Scuttle.Spec
