import Verif.Spec
import Verif.Model.Types

/-!
# Specification of instances

Reads an `Instance` as a multi-objective problem, again without functions of the model.
-/

namespace Scuttle.Spec

open Scuttle

/-- Value of an objective (`/repo/core/src/types.rs:224-246`) as a user understands it: the offset plus the weights of
the true literals. -/
def objValue : Objective → Asg → Int
  | .weighted off lits _ _, s => off + linear s lits
  | .unweighted off w lits _ _, s => off + w * linear s (lits.map fun l => (l, 1))
  | .constant off _ _, _ => off

/-- Literals of an objective. -/
def objLits : Objective → List Lit
  | .weighted _ lits _ _ => lits.map Prod.fst
  | .unweighted _ _ lits _ _ => lits
  | .constant .. => []

/-- The problem described by an instance (`/repo/core/src/types.rs:829-834`). -/
def problem (inst : Instance) : Problem := ⟨inst.clauses, inst.objs.map objValue⟩

/-- Instances as built by `/repo/core/src/prepro.rs:231-303`: all variables are managed, the original ones come first. -/
structure WellFormed (inst : Instance) : Prop where
  orig : inst.vm.maxOrigVar ≤ inst.vm.maxEncVar
  enc : inst.vm.maxEncVar < inst.vm.nextVar
  clauses : ∀ c ∈ inst.clauses, ∀ l ∈ c, l.var ≤ inst.vm.maxEncVar
  objs : ∀ o ∈ inst.objs, ∀ l ∈ objLits o, l.var ≤ inst.vm.maxEncVar

/-- The common weight of an unweighted objective is not zero. -/
def PosUnit (inst : Instance) : Prop := ∀ off w lits i lb, .unweighted off w lits i lb ∈ inst.objs → 0 < w

/-- The values of the objectives without offset, for feasible assignments, fit into `isize`. -/
def FitsIsize (inst : Instance) : Prop := ∀ s, (problem inst).Feasible s → ∀ o ∈ inst.objs,
  objValue o s - o.offset ≤ 2 ^ 63 - 1

/-- Assignments that agree on the original variables of the instance. -/
def SameOrig (inst : Instance) (s t : Asg) : Prop := ∀ v, v ≤ inst.vm.maxOrigVar → s v = t v

/-- The original variables determine the costs of Pareto-optimal assignments: a feasible assignment with the same values
of the original variables as a Pareto-optimal one is not better in any objective. -/
def OrigDetermines (inst : Instance) : Prop := ∀ s t, (problem inst).ParetoOptimal s → (problem inst).Feasible t →
  SameOrig inst s t → WeaklyDominates ((problem inst).costs s) ((problem inst).costs t)

/-- A solution of a point (`/repo/core/src/types.rs:142-148`) stands for the assignment `s`: it gives the values of `s`
to the original variables. -/
def Shows (inst : Instance) (sol : Assignment) (s : Asg) : Prop := Restricts sol s (inst.vm.maxOrigVar + 1)

/-- Two assignments set the same objective literals. -/
def SameObjLits (inst : Instance) (s t : Asg) : Prop := ∀ o ∈ inst.objs, ∀ l ∈ objLits o, LitTrue s l ↔ LitTrue t l

end Scuttle.Spec
