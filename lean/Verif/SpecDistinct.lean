import Verif.SpecIo
import Mathlib.Algebra.BigOperators.Group.List.Basic

/-!
# Specification: candidates that are not repeated
-/

namespace Scuttle.Spec

/-- No cost vector in the list is weakly dominated by an earlier one: it is better in some objective. -/
def NoRepeat (cs : List (List Nat)) : Prop := cs.Pairwise fun d c => ¬ List.Forall₂ (· ≤ ·) d c

/-- Number of vectors of internal costs: each objective has a cost between zero and the sum of its weights. -/
def costVectors (objs : List Objective) : Nat := (objs.map fun o => (o.iter.map Prod.snd).sum + 1).prod

end Scuttle.Spec
