import Mathlib.Data.List.Forall2
import Verif.Basic

/-!
# Specification

What a user of the solver expects, stated without any function of the model: feasible assignments, values of
objectives, dominance between cost vectors and non-dominated cost vectors.
-/

namespace Scuttle.Spec

open Scuttle

/-- A literal is true under `s`. -/
def LitTrue (s : Asg) (l : Lit) : Prop := s l.var = !l.neg

instance (s : Asg) (l : Lit) : Decidable (LitTrue s l) := by unfold LitTrue; infer_instance

/-- A multi-objective problem: clauses and objective functions (to be minimised). -/
structure Problem where
  clauses : List Clause
  objs : List (Asg → Int)

/-- `s` satisfies every clause. -/
def Problem.Feasible (P : Problem) (s : Asg) : Prop := ∀ c ∈ P.clauses, ∃ l ∈ c, LitTrue s l

/-- Cost vector of an assignment. -/
def Problem.costs (P : Problem) (s : Asg) : List Int := P.objs.map (· s)

/-- `a` is at least as good as `b` in each objective. -/
def WeaklyDominates (a b : List Int) : Prop := List.Forall₂ (· ≤ ·) a b

/-- `a` is at least as good as `b` and differs from it. -/
def Dominates (a b : List Int) : Prop := WeaklyDominates a b ∧ a ≠ b

/-- A feasible assignment that no feasible assignment dominates. -/
def Problem.ParetoOptimal (P : Problem) (s : Asg) : Prop :=
  P.Feasible s ∧ ∀ t, P.Feasible t → ¬ Dominates (P.costs t) (P.costs s)

/-- A cost vector of a Pareto-optimal assignment. The Pareto front is the set of these. -/
def Problem.NonDominated (P : Problem) (v : List Int) : Prop :=
  ∃ s, P.ParetoOptimal s ∧ P.costs s = v

/-- Sum of the weights of the true literals. -/
def linear (s : Asg) : List (Lit × Nat) → Nat
  | [] => 0
  | (l, w) :: ts => (if LitTrue s l then w else 0) + linear s ts

/-- A (restricted) solution agrees with a total assignment on the first `n` variables and says nothing about others. -/
def Restricts (sol : Assignment) (s : Asg) (n : Nat) : Prop :=
  sol.length = n ∧ ∀ v, v < n → sol[v]? = some (TV.ofBool (s v))

end Scuttle.Spec
