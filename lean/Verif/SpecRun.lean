import Verif.SpecInst
import Verif.Model.Alg

/-!
# Specification of what runs of the solvers deliver
-/

namespace Scuttle.Spec

open Scuttle

variable {P C : Type} [UbEnc P] [UbEnc C]

/-- `s` is a freshly built solver for the instance, with or without a logger attached. -/
def Started (alg : Alg) (inst : Instance) (bcg : Assignment → Clause) (opts : KernelOptions) (s : Slv P C) : Prop :=
  ∃ s0, alg.new inst bcg opts = some s0 ∧ (s = s0 ∨ s = s0.attachLogger)

/-- The costs of the points in the front are exactly the non-dominated cost vectors, each listed once. -/
structure ExactFront (inst : Instance) (front : ParetoFront Assignment) : Prop where
  exact : ∀ v, v ∈ front.map NonDomPoint.costs ↔ (problem inst).NonDominated v
  once : (front.map NonDomPoint.costs).Nodup

/-- Each point of the front has non-dominated costs, no costs are listed twice. -/
structure SoundFront (inst : Instance) (front : ParetoFront Assignment) : Prop where
  sound : ∀ p ∈ front, (problem inst).NonDominated p.costs
  once : (front.map NonDomPoint.costs).Nodup

/-- Each point lists at least one solution, and each listed solution is the restriction to the original variables of a
feasible assignment with the costs of the point. -/
structure SolutionsOK (inst : Instance) (front : ParetoFront Assignment) : Prop where
  some : ∀ p ∈ front, p.sols ≠ []
  attain : ∀ p ∈ front, ∀ x ∈ p.sols, ∃ s, (problem inst).Feasible s ∧ (problem inst).costs s = p.costs ∧ Shows inst x s

/-- Objective literals are original variables. -/
def ObjsOrig (inst : Instance) : Prop := ∀ o ∈ inst.objs, ∀ l ∈ objLits o, l.var ≤ inst.vm.maxOrigVar

/-- A blocking clause generator supplied by the user: after a Pareto-optimal assignment was reported, the clause blocks
all assignments with the same original part and no assignment that is better in some objective. -/
def GoodBlocking (inst : Instance) (bcg : Assignment → Clause) : Prop :=
  ∀ s x, (problem inst).ParetoOptimal s → Shows inst x s →
    (∀ l ∈ bcg x, l.var ≤ inst.vm.maxEncVar) ∧
    (∀ t, SameOrig inst s t → ¬ ∃ l ∈ bcg x, LitTrue t l) ∧
    (∀ t, (problem inst).Feasible t → (¬ ∃ l ∈ bcg x, LitTrue t l) →
      WeaklyDominates ((problem inst).costs s) ((problem inst).costs t))

/-- Settings of the enumeration that make sense for the instance (`/repo/core/src/options.rs:60-69`). -/
inductive EnumFine (inst : Instance) : EnumOptions → (Assignment → Clause) → Prop
  | noEnum (bcg) : EnumFine inst .noEnum bcg
  | solutions (limit) (bcg) (h : GoodBlocking inst bcg) : EnumFine inst (.solutions limit) bcg
  | pmcss (limit) (bcg) (h : ObjsOrig inst) : EnumFine inst (.pmcss limit) bcg

/-- No limit is zero. -/
structure PosLimits (l : Limits) : Prop where
  pps : l.pps ≠ some 0
  sols : l.sols ≠ some 0
  candidates : l.candidates ≠ some 0
  oracleCalls : l.oracleCalls ≠ some 0

/-- Contract of the SAT oracle. A model satisfies clauses and assumptions. A core consists of negated assumptions and is
implied by the clauses. Without conflict limit, `Interrupted` is only returned if the termination flag has been set
(`Interrupter::interrupt` sets the flag before interrupting the oracle, `/repo/core/src/algs.rs:149-152`), which stays
set. Flipping a literal in a model gives a model in which the literal is true; frozen variables other than its own keep
their values, other variables may change. -/
structure CorrectOracle (env : Env) : Prop where
  sat : ∀ t lim db as m, env.oracle t lim db as = .sat m →
    (∀ c ∈ db, ∃ l ∈ c, LitTrue m l) ∧ ∀ l ∈ as, LitTrue m l
  unsat : ∀ t lim db as core, env.oracle t lim db as = .unsat core →
    (∀ l ∈ core, l.not ∈ as) ∧ ∀ m, (∀ c ∈ db, ∃ l ∈ c, LitTrue m l) → ∃ l ∈ core, LitTrue m l
  interrupted : ∀ t db as, env.oracle t false db as = .interrupted → ∀ t', t < t' → env.flag t' = true
  flip : ∀ t db frozen m l m', env.flip t db frozen m l = some m' → (∀ c ∈ db, ∃ l ∈ c, LitTrue m l) →
    (∀ c ∈ db, ∃ l ∈ c, LitTrue m' l) ∧ LitTrue m' l ∧ ∀ v ∈ frozen, v ≠ l.var → m' v = m v

/-- The weights of the objectives are positive. -/
def PosWeights (inst : Instance) : Prop := ∀ off lits i lb, .weighted off lits i lb ∈ inst.objs → ∀ p ∈ lits, 0 < p.2

/-- No objective has a literal twice. -/
def NoDupLits (inst : Instance) : Prop := ∀ o ∈ inst.objs, (objLits o).Nodup

/-- The instance and the way the solver is used: what the theorems on runs assume. -/
structure Setting (inst : Instance) (bcg : Assignment → Clause) (opts : KernelOptions) (env : Env) : Prop where
  wf : WellFormed inst
  fits : FitsIsize inst
  unit : PosUnit inst
  enum : EnumFine inst opts.enumeration bcg
  oracle : CorrectOracle env
  tight : env.tighten = true → NoDupLits inst ∧ PosWeights inst

/-- Limits are positive; in a release build a limit of zero behaves like a very large one. -/
def LimitsFine (env : Env) (l : Limits) : Prop := env.debug = true → PosLimits l

/-! ## Core boosting -/

/-- Cores of assumptions without repetition have no repetition. -/
def NoDupCores (env : Env) : Prop :=
  ∀ t lim db as core, env.oracle t lim db as = .unsat core → as.Nodup → core.Nodup

/-- An objective with the same value for all feasible assignments has just its offset as value. -/
def NotFlat (inst : Instance) : Prop :=
  ∀ o ∈ inst.objs, (∀ s t, (problem inst).Feasible s → (problem inst).Feasible t → objValue o s = objValue o t) →
    ∀ s, (problem inst).Feasible s → objValue o s = o.offset

end Scuttle.Spec
