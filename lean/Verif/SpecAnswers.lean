import Verif.SpecCli

/-!
# Specification: what a user reads off the printed front
-/

namespace Scuttle.Spec

/-- The lexicographic order: the first difference decides. -/
def LexLe : List Int → List Int → Prop
  | a :: v, b :: w => a < b ∨ a = b ∧ LexLe v w
  | [], _ => True
  | _ :: _, [] => False

/-- The sum of the costs with the given weights. -/
def weightedSum : List Nat → List Int → Int
  | c :: cs, a :: v => c * a + weightedSum cs v
  | _, _ => 0

/-- The printed front answers the questions about the instance: a printed point is at least as good as any solution, nothing
is printed if and only if there is no solution, and the best value of each weighted sum of the objectives is that of a printed
point. -/
structure Answers (p : Parsed) (front : ParetoFront Assignment) : Prop where
  covered : ∀ t, ParsedFeasible p t → ∃ pt ∈ front, WeaklyDominates pt.costs (parsedCosts p t)
  none : front = [] ↔ ¬ ∃ t, ParsedFeasible p t
  best : ∀ cs t, ParsedFeasible p t → ∃ pt ∈ front, (∃ x ∈ pt.sols, PrintedSolution p pt.costs x) ∧
    weightedSum cs pt.costs ≤ weightedSum cs (parsedCosts p t)

end Scuttle.Spec
