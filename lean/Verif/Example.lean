import Verif.Proof.RefEnc
import Verif.Proof.Solve

/-!
# Example instances

Used beside the theorems to show that their hypotheses can be met.
-/

namespace Scuttle.Example

open Spec

/-- Two objectives, one weighted and one unweighted with a multiplier, over four variables. -/
def inst : Instance where
  clauses := [[Lit.pos 0, Lit.pos 1], [Lit.pos 1, Lit.pos 2], [Lit.pos 0, Lit.pos 3]]
  objs := [.weighted (-2) [(Lit.pos 0, 2), (Lit.pos 1, 3)] 0 0, .unweighted 1 5 [Lit.pos 2, Lit.pos 3] 1 0]
  vm := ⟨4, 3, 3⟩

/-- The same, but the last variable is not an original one, as after relaxing a soft clause. -/
def relaxed : Instance := { inst with vm := ⟨4, 2, 3⟩ }

/-- Solver with the reference encodings; the weighted one returns two output literals for each bound. -/
abbrev Solver := Slv (RefEnc 1) (RefEnc 0)

theorem fitsIsize_of_sum {inst : Instance} (h : ∀ o ∈ inst.objs, maxCost o * o.unitWeight ≤ 2 ^ 63 - 1) :
    FitsIsize inst := by
  intro s _ o ho
  rw [objValue_eq]
  have h1 : icost o s ≤ maxCost o := icost_le_maxCost o s
  have h2 := Nat.mul_le_mul_right o.unitWeight h1
  have h3 := h o ho
  unfold extVal
  have : (icost o s * o.unitWeight : Nat) + o.offset - o.offset = ((icost o s * o.unitWeight : Nat) : Int) := by omega
  omega

theorem wellFormed : WellFormed inst := ⟨by decide, by decide, by decide, by decide⟩

theorem relaxed_wellFormed : WellFormed relaxed := ⟨by decide, by decide, by decide, by decide⟩

theorem fits : FitsIsize inst := fitsIsize_of_sum (by decide)

theorem relaxed_fits : FitsIsize relaxed := fitsIsize_of_sum (by decide)

theorem posUnit : PosUnit inst := by
  intro off w lits i lb h
  simp [inst] at h
  omega

theorem relaxed_posUnit : PosUnit relaxed := posUnit

theorem objsOrig : ObjsOrig inst := by unfold ObjsOrig; decide

/-- The value of the relaxation literal of a Pareto-optimal assignment cannot be improved. -/
theorem relaxed_determines : OrigDetermines relaxed := by
  intro s t hs ht hst
  have h0 : s 0 = t 0 := hst 0 (by decide)
  have h1 : s 1 = t 1 := hst 1 (by decide)
  have h2 : s 2 = t 2 := hst 2 (by decide)
  have hd := hs.2 t ht
  simp only [Dominates, WeaklyDominates, problem, relaxed, inst, Problem.costs, List.map_cons, List.map_nil,
    objValue, linear, LitTrue, Lit.pos, h0, h1, h2, List.forall₂_cons, List.forall₂_nil_right_iff] at hd ⊢
  rcases Bool.eq_false_or_eq_true (s 3) with h3 | h3 <;> rcases Bool.eq_false_or_eq_true (t 3) with h4 | h4 <;>
    simp_all <;> split at * <;> simp_all

/-- Original variables of `inst` determine everything. -/
theorem determines : OrigDetermines inst := by
  intro s t _ _ hst
  have h0 : s 0 = t 0 := hst 0 (by decide)
  have h1 : s 1 = t 1 := hst 1 (by decide)
  have h2 : s 2 = t 2 := hst 2 (by decide)
  have h3 : s 3 = t 3 := hst 3 (by decide)
  have : (problem inst).costs s = (problem inst).costs t := by
    simp only [problem, inst, Problem.costs, List.map_cons, List.map_nil, objValue, linear, LitTrue, Lit.pos, h0, h1, h2, h3]
  rw [this]
  exact List.forall₂_refl _

theorem limitsFine (env : Env) : LimitsFine env ⟨some 5, none, some 7, some 100⟩ := fun _ =>
  ⟨by simp, by simp, by simp, by simp⟩

end Scuttle.Example
