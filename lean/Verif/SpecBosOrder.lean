import Verif.SpecRun
import Verif.SpecPrepro

/-!
# Specification: the order in which BiOptSat finds points
-/

namespace Scuttle.Spec

/-- A pair of costs with a smaller first and a larger second cost. -/
def Before (v w : List Int) : Prop := ∃ a b c d, v = [a, b] ∧ w = [c, d] ∧ a < c ∧ d < b

/-- The points are listed from left to right, and the points of the Pareto front that are missing are right of all of them. -/
structure LeftPart (inst : Instance) {S : Type} (front : ParetoFront S) : Prop where
  sorted : front.Pairwise fun p q => Before p.costs q.costs
  missing : ∀ v, (problem inst).NonDominated v → v ∈ front.map NonDomPoint.costs ∨ ∀ p ∈ front, Before p.costs v

/-- The same for the printed front and the parsed instance. -/
structure PrintedLeft (p : Parsed) {S : Type} (front : ParetoFront S) : Prop where
  sorted : front.Pairwise fun p q => Before p.costs q.costs
  missing : ∀ v, ParsedNonDominated p v → v ∈ front.map NonDomPoint.costs ∨ ∀ p ∈ front, Before p.costs v

end Scuttle.Spec
