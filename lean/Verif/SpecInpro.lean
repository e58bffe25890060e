import Verif.SpecPrepro
import Verif.Model.Inprocess

/-!
# Specification of inprocessing

Reads hard clauses with the soft clauses of each objective as a multi-objective problem, and says when it is as good as
the instance.
-/

namespace Scuttle.Spec

open Scuttle

/-- All clauses hold. -/
def Satisfies (m : Asg) (F : List Clause) : Prop := ∀ c ∈ F, ∃ l ∈ c, LitTrue m l

/-- Costs of an assignment by the soft clauses of the objectives, with a constant for each objective. -/
def softCosts (inst : Instance) (S : List Softs) (offs : List Nat) (m : Asg) : List Int :=
  List.zipWith (fun o p => o.offset + o.unitWeight * ((p.2 + softCost m p.1 : Nat) : Int)) inst.objs (S.zip offs)

/-- Hard clauses `F` with soft clauses `S` stand for the instance, up to constants: a model of `F` is feasible and its costs
by the soft clauses are not better than its costs, and each feasible assignment can be extended to a model for which
these costs are the costs of the assignment. -/
structure StandsFor (inst : Instance) (F : List Clause) (S : List Softs) (offs : List Nat) : Prop where
  len : S.length = inst.objs.length
  lenOffs : offs.length = inst.objs.length
  feasible : ∀ m, Satisfies m F → (problem inst).Feasible m
  over : ∀ m, Satisfies m F → WeaklyDominates ((problem inst).costs m) (softCosts inst S offs m)
  attained : ∀ t, (problem inst).Feasible t → ∃ m, (∀ v, v ≤ inst.vm.maxEncVar → m v = t v) ∧ Satisfies m F ∧
    softCosts inst S offs m = (problem inst).costs t

/-- The two behave the same way on instances that stand for `inst`. -/
def SameMaxPre (inst : Instance) (mp mp' : MaxPre) : Prop := ∀ F S offs, StandsFor inst F S offs →
  mp.run F S = mp'.run F S ∧ mp.nClauses F S = mp'.nClauses F S ∧ mp.nFixed F S = mp'.nFixed F S

/-- A cost vector of the Pareto front of hard clauses with soft clauses. -/
def SoftNonDominated (inst : Instance) (F : List Clause) (S : List Softs) (offs : List Nat) (v : List Int) : Prop :=
  ∃ m, Satisfies m F ∧ softCosts inst S offs m = v ∧
    ∀ m', Satisfies m' F → ¬ Dominates (softCosts inst S offs m') (softCosts inst S offs m)

/-- Preprocessing that keeps the models: soft clauses are only removed, those that hold in all models for free and those
that hold in none with their weights as offset. -/
structure KeepsModels (F : List Clause) (S : List Softs) (F' : List Clause) (R : List (Softs × Int)) : Prop where
  models : ∀ m, Satisfies m F' ↔ Satisfies m F
  vars : ∀ c ∈ F', ∀ l ∈ c, ∃ c' ∈ F, ∃ l' ∈ c', l'.var = l.var
  softs : List.Forall₂ (fun (Si : Softs) (Ri : Softs × Int) => ∃ held failed : Softs, (Ri.1 ++ (held ++ failed)).Perm Si ∧
    (∀ p ∈ held, ∀ m, Satisfies m F → Satisfies m [p.1]) ∧ (∀ p ∈ failed, ∀ m, Satisfies m F → ¬ Satisfies m [p.1]) ∧
    Ri.2 = (((failed.map Prod.snd).sum : Nat) : Int)) S R

/-- Each objective has at least two values. -/
def Varies (inst : Instance) : Prop :=
  ∀ o ∈ inst.objs, ∃ s t, (problem inst).Feasible s ∧ (problem inst).Feasible t ∧ objValue o s ≠ objValue o t

/-- MaxPre keeps the models of all instances that stand for `inst`. -/
def MpKeeps (inst : Instance) (mp : MaxPre) : Prop :=
  ∀ F S offs, StandsFor inst F S offs → KeepsModels F S (mp.run F S).1 (mp.run F S).2

/-- The result of preprocessing has the same costs: each model has a counterpart with the same costs by the soft clauses,
and the other way round. -/
def KeepsCosts (inst : Instance) (mp : MaxPre) : Prop := ∀ F S offs v,
  (∃ m, Satisfies m F ∧ softCosts inst S offs m = v) ↔
  ∃ m, Satisfies m (mp.run F S).1 ∧ softCosts inst ((mp.run F S).2.map Prod.fst)
    (List.zipWith (fun k (r : Softs × Int) => k + r.2.toNat) offs (mp.run F S).2) m = v

end Scuttle.Spec
