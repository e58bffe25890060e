import Verif.SpecInst
import Verif.Model.Prepro

/-!
# Specification of what happens to an instance before solving

Reads a parsed instance (`/repo/core/src/types.rs:823-827`) as a multi-objective problem, without functions of the model.
-/

namespace Scuttle.Spec

open Scuttle

/-- Sum of the weights of the true literals, for signed weights. -/
def pbSum (s : Asg) : List (Lit × Int) → Int
  | [] => 0
  | (l, w) :: ts => (if LitTrue s l then w else 0) + pbSum s ts

/-- A pseudo-Boolean constraint holds. -/
def PbHolds (s : Asg) (c : PbCon) : Prop :=
  match c.rel with
  | .ge => c.bound ≤ pbSum s c.terms
  | .le => pbSum s c.terms ≤ c.bound
  | .eq => pbSum s c.terms = c.bound

instance (s : Asg) (c : PbCon) : Decidable (PbHolds s c) := by unfold PbHolds; split <;> infer_instance

/-- Sum of the weights of the violated soft clauses. -/
def softCost (s : Asg) : List (Clause × Nat) → Nat
  | [] => 0
  | (c, w) :: cs => (if ∃ l ∈ c, LitTrue s l then 0 else w) + softCost s cs

/-- `s` satisfies every hard constraint. -/
def ParsedFeasible (p : Parsed) (s : Asg) : Prop := ∀ c ∈ p.constraints, PbHolds s c

/-- Costs of an assignment: for each objective its offset and the weights of the violated soft clauses. -/
def parsedCosts (p : Parsed) (s : Asg) : List Int := p.objs.map fun o => o.offset + softCost s o.softs

/-- A cost vector of the Pareto front of a parsed instance. -/
def ParsedNonDominated (p : Parsed) (v : List Int) : Prop :=
  ∃ s, ParsedFeasible p s ∧ (∀ t, ParsedFeasible p t → ¬ Dominates (parsedCosts p t) (parsedCosts p s)) ∧
    parsedCosts p s = v

/-- What parsing guarantees (`/repo/core/src/prepro.rs:92-139`): all variables are original ones, and the soft clauses of
an objective, which `rustsat` keeps in a hash map, are different. -/
structure ParsedOK (p : Parsed) : Prop where
  vm : p.vm.nextVar = p.vm.maxOrigVar + 1
  cons : ∀ c ∈ p.constraints, ∀ t ∈ c.terms, t.1.var ≤ p.vm.maxOrigVar
  softs : ∀ o ∈ p.objs, ∀ q ∈ o.softs, ∀ l ∈ q.1, l.var ≤ p.vm.maxOrigVar
  nodup : ∀ o ∈ p.objs, (o.softs.map Prod.fst).Nodup

/-- What is assumed of `default_encode_pb_constraint` of `rustsat`: it only uses variables of the constraint and new
ones, and the clauses restrict the variables below the next free one in the same way as the constraint. -/
structure GoodPbEncoding (enc : PbCon → Nat → List Clause × Nat) : Prop where
  mono : ∀ c n, n ≤ (enc c n).2
  vars : ∀ c n, (∀ t ∈ c.terms, t.1.var < n) → ∀ cl ∈ (enc c n).1, ∀ l ∈ cl, l.var < (enc c n).2
  sound : ∀ c n, (∀ t ∈ c.terms, t.1.var < n) → ∀ s, (∀ cl ∈ (enc c n).1, ∃ l ∈ cl, LitTrue s l) → PbHolds s c
  complete : ∀ c n, (∀ t ∈ c.terms, t.1.var < n) → ∀ s, PbHolds s c →
    ∃ t : Asg, (∀ v, v < n → t v = s v) ∧ ∀ cl ∈ (enc c n).1, ∃ l ∈ cl, LitTrue t l

/-- What MaxPre returns as objectives: different soft clauses with one literal each. -/
structure UnitSofts (objs : List SoftObj) : Prop where
  unit : ∀ o ∈ objs, ∀ q ∈ o.softs, ∃ l, q.1 = [l]
  nodup : ∀ o ∈ objs, (o.softs.map Prod.fst).Nodup

/-- Values of the objectives without offsets and common weights: the internal costs. -/
def internalCost (o : Objective) (s : Asg) : Nat :=
  match o with
  | .weighted _ lits _ _ => linear s lits
  | .unweighted _ _ lits _ _ => linear s (lits.map fun l => (l, 1))
  | .constant .. => 0

/-- An assignment agrees with all values given by a solution. -/
def Extends (s : Asg) (sol : Assignment) : Prop := ∀ v b, sol[v]? = some (TV.ofBool b) → s v = b

end Scuttle.Spec
