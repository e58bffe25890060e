import Verif.SpecIo

/-!
# Specification of what the messages about bounds say
-/

namespace Scuttle.Spec

open Scuttle

/-- The points in the log. -/
def points (log : List LogEvent) : List (NonDomPoint Assignment) :=
  log.filterMap fun
    | .nonDominated p => some p
    | _ => none

/-- Each feasible assignment whose values do not exceed the bounds is weakly dominated by one of the points. -/
def CoveredBelow (inst : Instance) (b : List Nat) (pts : List (NonDomPoint Assignment)) : Prop :=
  ∀ t, (problem inst).Feasible t →
    (∀ (i : Nat) (o : Objective) (x : Nat), inst.objs[i]? = some o → b[i]? = some x → objValue o t ≤ externalCost o x) →
    ∃ p ∈ pts, WeaklyDominates p.costs ((problem inst).costs t)

/-- Whenever the fence is updated, the points logged before cover everything below the fence that was valid until then;
`b0` is the fence at the beginning. -/
def FencesTrue (inst : Instance) (b0 : List Nat) (log : List LogEvent) : Prop :=
  ∀ pre b' post, log = pre ++ .fence b' :: post → ∀ b, (b0 :: fences pre).getLast? = some b →
    CoveredBelow inst b (points pre)

/-- The ideal points in the log. -/
def ideals (log : List LogEvent) : List (List Nat) :=
  log.filterMap fun
    | .ideal p => some p
    | _ => none

/-- The point consists of the least values of the objectives over the feasible assignments. If there is no feasible
assignment, it may be too short. -/
structure IsIdeal (inst : Instance) (p : List Nat) : Prop where
  length : (∃ t, (problem inst).Feasible t) → p.length = inst.objs.length
  lower : ∀ (i : Nat) (o : Objective) (x : Nat), inst.objs[i]? = some o → p[i]? = some x →
    ∀ t, (problem inst).Feasible t → externalCost o x ≤ objValue o t
  attained : ∀ (i : Nat) (o : Objective) (x : Nat), inst.objs[i]? = some o → p[i]? = some x →
    (∃ t, (problem inst).Feasible t) → ∃ t, (problem inst).Feasible t ∧ objValue o t = externalCost o x

/-- The candidate is the cost vector of a feasible assignment or a worse one. -/
def Reached (inst : Instance) (c : List Nat) : Prop := c.length = inst.objs.length ∧
  ∃ t, (problem inst).Feasible t ∧ WeaklyDominates ((problem inst).costs t) (List.zipWith externalCost inst.objs c)

/-- The candidate is the cost vector of a feasible assignment. -/
def Attained (inst : Instance) (c : List Nat) : Prop := c.length = inst.objs.length ∧
  ∃ t, (problem inst).Feasible t ∧ (problem inst).costs t = List.zipWith externalCost inst.objs c

/-- The heuristic improvements in the log: index of the objective, cost before and cost after. -/
def improvements (log : List LogEvent) : List (Nat × Nat × Nat) :=
  log.filterMap fun
    | .heurImprovement i a b => some (i, a, b)
    | _ => none

/-- There is a feasible assignment with the first cost, and one with the second cost that weakly dominates it. -/
def Improved (inst : Instance) (i a b : Nat) : Prop :=
  ∃ o t t', inst.objs[i]? = some o ∧ (problem inst).Feasible t ∧ (problem inst).Feasible t' ∧ objValue o t = externalCost o a ∧
    objValue o t' = externalCost o b ∧ WeaklyDominates ((problem inst).costs t') ((problem inst).costs t)

/-- No literal is in two objectives. -/
def NoShared (inst : Instance) : Prop := ∀ (i j : Nat) (o o' : Objective), i ≠ j → inst.objs[i]? = some o →
  inst.objs[j]? = some o' → ∀ l ∈ objLits o, l ∉ objLits o'

end Scuttle.Spec
