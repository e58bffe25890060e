import Verif.Proof.Basic
import Verif.Model.Kernel

/-!
# C20: construction of objectives
-/

namespace Scuttle

open Spec

/-- All weights in the list are equal. -/
def SameWeights (lits : List (Lit × Nat)) : Prop := ∀ p ∈ lits, ∀ q ∈ lits, p.2 = q.2

/-- **C20.** The external cost of a solution with respect to the objective built by `Objective::new` is the offset plus
the sum of the weights of the literals that are true in it. -/
theorem objective_new_value (debug : Bool) (lits : List (Lit × Nat)) (off : Int) (idx n : Nat) (m : Asg)
    (hvars : ∀ p ∈ lits, p.1.var < n)
    (hd : (lits.map Prod.fst).Nodup ∨ SameWeights lits)
    (hfit : linear m lits ≤ isizeMax) :
    externalizeOne debug (Objective.new lits off idx)
      ((Objective.new lits off idx).costOf (Assignment.ofModel m n)) = some (linear m lits + off) := by
  cases lits with
  | nil => simp [Objective.new, externalizeOne, Objective.costOf, Objective.iter, linear]
  | cons p lits =>
    obtain ⟨l, w⟩ := p
    simp only [Objective.new]
    split
    · next hw =>
      have hnd : (((l, w) :: lits).map Prod.fst).Nodup := by
        rcases hd with hd | hd
        · exact hd
        · exfalso
          rw [List.any_eq_true] at hw
          obtain ⟨q, hq, hne⟩ := hw
          have := hd (l, w) (by simp) q hq
          simp at hne this; omega
      rw [Objective.costOf_ofModel]
      · simp only [externalizeOne, Objective.iter, mapCollect_nodup _ hnd, if_pos hfit]
      · simpa [Objective.iter, mapCollect_nodup _ hnd] using hvars
    · next hw =>
      have heq : ∀ q ∈ (l, w) :: lits, q.2 = w := by
        intro q hq
        by_contra hne
        apply hw
        rw [List.any_eq_true]
        exact ⟨q, hq, by simpa using hne⟩
      have hlin : ∀ ls : List (Lit × Nat), (∀ q ∈ ls, q.2 = w) →
          linear m ((ls.map Prod.fst).map fun l => (l, 1)) * w = linear m ls := by
        intro ls
        induction ls with
        | nil => intro; simp [linear]
        | cons q ls ih =>
          intro hq
          obtain ⟨l', w'⟩ := q
          have h1 := hq (l', w') (by simp)
          simp only at h1
          subst h1
          simp only [List.map_cons, linear, Nat.add_mul]
          rw [ih (fun q hq' => hq q (by simp [hq']))]
          split <;> simp
      have hit : (Objective.unweighted off w (((l, w) :: lits).map Prod.fst) idx 0).iter
          = ((((l, w) :: lits).map Prod.fst).map fun l => (l, 1)) := rfl
      rw [Objective.costOf_ofModel, hit]
      · simp only [externalizeOne]
        rw [hlin _ heq, if_pos hfit]
      · intro q hq
        simp only [Objective.iter, List.mem_map] at hq
        obtain ⟨l', ⟨q', hq', rfl⟩, rfl⟩ := hq
        exact hvars q' hq'

/-- A weighted and an unweighted case of the hypotheses of `objective_new_value`. -/
example : (∀ p ∈ [(Lit.pos 0, 3), (Lit.negOf 1, 2)], p.1.var < 2) ∧
    ([(Lit.pos 0, 3), (Lit.negOf 1, 2)].map Prod.fst).Nodup ∧
    linear (fun _ => true) [(Lit.pos 0, 3), (Lit.negOf 1, 2)] ≤ isizeMax := by decide
example : SameWeights [(Lit.pos 0, 3), (Lit.pos 0, 3)] := by unfold SameWeights; decide

/-- **C20.** The form of the objective: constant without literals, weighted if two weights differ, unweighted
otherwise. -/
theorem objective_new_form (lits : List (Lit × Nat)) (off : Int) (idx : Nat) :
    (lits = [] ↔ ∃ b, Objective.new lits off idx = .constant off idx b) ∧
    (¬ SameWeights lits ↔ ∃ ls b, Objective.new lits off idx = .weighted off ls idx b) ∧
    (lits ≠ [] ∧ SameWeights lits ↔ ∃ w ls b, Objective.new lits off idx = .unweighted off w ls idx b) := by
  cases lits with
  | nil => simp [Objective.new, SameWeights]
  | cons p lits =>
    obtain ⟨l, w⟩ := p
    have key : ((l, w) :: lits).any (fun p => p.2 != w) = true ↔ ¬ SameWeights ((l, w) :: lits) := by
      rw [List.any_eq_true]
      constructor
      · rintro ⟨q, hq, hne⟩ h
        have := h (l, w) (by simp) q hq
        simp at hne this; omega
      · intro h
        by_contra hcon
        apply h
        have : ∀ q ∈ (l, w) :: lits, q.2 = w := by
          intro q hq
          by_contra hne
          exact hcon ⟨q, hq, by simpa using hne⟩
        intro a ha b hb
        rw [this a ha, this b hb]
    simp only [Objective.new]
    by_cases h : SameWeights ((l, w) :: lits)
    · have h' : ¬ (((l, w) :: lits).any (fun p => p.2 != w) = true) := by rw [key]; simpa using h
      rw [if_neg h']
      simp [h]
    · have h' : (((l, w) :: lits).any (fun p => p.2 != w) = true) := key.2 h
      rw [if_pos h']
      simp [h]

/-- The three forms occur. -/
example : Objective.new [] 1 0 = .constant 1 0 0 ∧
    Objective.new [(Lit.pos 0, 2), (Lit.pos 1, 2)] 1 0 = .unweighted 1 2 [Lit.pos 0, Lit.pos 1] 0 0 ∧
    Objective.new [(Lit.pos 0, 2), (Lit.pos 1, 3)] 1 0 = .weighted 1 [(Lit.pos 0, 2), (Lit.pos 1, 3)] 0 0 := by decide

/-- **Finding for C20.** With a repeated literal and different weights the value of the objective is lost: for
`2 x + 3 x` only `3 x` is kept. -/
theorem objective_new_duplicate_counterexample :
    ∃ (lits : List (Lit × Nat)) (m : Asg) (n : Nat), (∀ p ∈ lits, p.1.var < n) ∧ linear m lits ≤ isizeMax ∧
      externalizeOne false (Objective.new lits 0 0)
        ((Objective.new lits 0 0).costOf (Assignment.ofModel m n)) ≠ some (linear m lits) :=
  ⟨[(Lit.pos 0, 2), (Lit.pos 0, 3)], fun _ => true, 1, by decide⟩

end Scuttle
