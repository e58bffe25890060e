import Verif.SpecRun
import Verif.Model.CoreGuided

/-!
# Specification of core-guided search

What cores are, and what a reformulated objective stands for.
-/

namespace Scuttle.Spec

/-- A core of the clauses and the base assumptions: one of its literals holds whenever both hold. -/
def CoreOf (db : List Clause) (base core : List Lit) : Prop :=
  ∀ m : Asg, (∀ c ∈ db, ∃ l ∈ c, LitTrue m l) → (∀ l ∈ base, LitTrue m l) → ∃ l ∈ core, LitTrue m l

/-- The oracle returns the literals of a core in the order of the assumptions. -/
def OrderedCores (env : Env) : Prop :=
  ∀ t lim db as core, env.oracle t lim db as = .unsat core → (core.map Lit.not).Sublist as

/-- The literals are sorted and without repetition. -/
def SortedLits (ls : List Lit) : Prop := ls.Pairwise fun a b => a.var < b.var ∨ a.var = b.var ∧ a.neg = false ∧ b.neg = true

/-- Literals of a reformulated objective with their current weights; a literal of an unweighted objective that has been
relaxed has none. -/
def currentWeights : Inactives → List (Lit × Nat)
  | .weighted m => m
  | .unweighted lits active => lits.map fun l => (l, if l ∈ active then 0 else 1)
  | .constant => []

/-- The number of true inputs that a connection of a totalizer contributes, if `count` inputs of the totalizer are true:
those after the first `offset`, at most `limit`, times the weight. -/
def conValue (c : NodeCon) (count : Nat) : Nat :=
  c.weight * match c.limit with
    | none => count - c.offset
    | some k => min k (count - c.offset)

/-- Value of a reformulated objective, if `count` tells for each totalizer how many inputs are true, and `cores` are the
cores that are not reformulated yet, with their weights.

A literal that is output number `i` of a totalizer counts if more than `i` inputs are true, and for each input beyond that
the weight of the totalizer counts; a core counts all its true inputs but one. -/
def reformValue (r : Reform) (cores : List (List NodeCon × Nat)) (count : Nat → Nat) (t : Asg) : Nat :=
  r.offset +
  ((currentWeights r.inactives).map fun p => p.2 * match mapGet p.1 r.refs with
    | some rd => if rd.oidx < count rd.root then 1 else 0
    | none => if p.1.eval t = true then 1 else 0).sum +
  (r.refs.map fun p => p.2.totWeight * (count p.2.root - (p.2.oidx + 1))).sum +
  (cores.map fun c => c.2 * ((c.1.map fun n => conValue n (count n.id)).sum - 1)).sum

end Scuttle.Spec
