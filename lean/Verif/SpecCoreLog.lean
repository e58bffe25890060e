import Verif.SpecLogTrue

/-!
# Specification of what the messages about cores say
-/

namespace Scuttle.Spec

open Scuttle

/-- By how much the lower bound is raised, according to a message: a core of weight `w` raises it by `w`; a core that is
exhausted up to `k` stands for at least `k` true literals, one of which was counted with the core. -/
def raised : LogEvent → Nat
  | .core w _ _ => w
  | .coreExhaustion k w => (k - 1) * w
  | _ => 0

/-- Adds up what is raised, starting over with each run of the OLL algorithm; the sum for the last run comes first. -/
def ollStep (acc : List Nat) (e : LogEvent) : List Nat :=
  if e = .routineStart "oll" then 0 :: acc
  else match acc with
    | [] => []
    | x :: xs => (x + raised e) :: xs

/-- For each run of the OLL algorithm in the log, by how much its messages raise the lower bound in total. -/
def ollSums (log : List LogEvent) : List Nat := (log.foldl ollStep []).reverse

/-- A core has positive weight, is not empty, and has not become longer by minimization and trimming. Exhaustion is only
reported if it has raised the bound. -/
def CoreFine : LogEvent → Prop
  | .core w len redLen => 0 < w ∧ 0 < redLen ∧ redLen ≤ len
  | .coreExhaustion k w => 1 < k ∧ 0 < w
  | _ => True

/-- The objectives that core-guided search is run on. -/
def searched (inst : Instance) : List Objective := inst.objs.filter fun o => !o.isConstant

/-- No feasible assignment has a lower value. -/
def LowerFor (inst : Instance) (o : Objective) (x : Nat) : Prop :=
  ∀ t, (problem inst).Feasible t → externalCost o x ≤ objValue o t

/-- The least value. -/
def LeastFor (inst : Instance) (o : Objective) (x : Nat) : Prop :=
  LowerFor inst o x ∧ ∃ t, (problem inst).Feasible t ∧ objValue o t = externalCost o x

end Scuttle.Spec
