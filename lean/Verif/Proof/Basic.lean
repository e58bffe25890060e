import Mathlib.Algebra.Order.Group.Nat
import Mathlib.Tactic.Ring
import Mathlib.Tactic.Linarith
import Verif.Spec
import Verif.Model.Types

/-!
# Helper lemmas on literals, assignments and objectives
-/

namespace Scuttle

open Spec

theorem Lit.eval_iff (m : Asg) (l : Lit) : l.eval m = true ↔ LitTrue m l := by
  unfold Lit.eval LitTrue; cases m l.var <;> cases l.neg <;> simp

@[simp] theorem Lit.not_not (l : Lit) : l.not.not = l := by cases l; simp [Lit.not]

@[simp] theorem Lit.not_var (l : Lit) : l.not.var = l.var := rfl

@[simp] theorem Lit.eval_not (m : Asg) (l : Lit) : l.not.eval m = !l.eval m := by
  unfold Lit.eval Lit.not; cases m l.var <;> cases l.neg <;> rfl

@[simp] theorem Lit.pos_var (v : Nat) : (Lit.pos v).var = v := rfl

@[simp] theorem Lit.eval_pos (m : Asg) (v : Nat) : (Lit.pos v).eval m = m v := by
  unfold Lit.eval Lit.pos; cases m v <;> rfl

theorem Lit.ne_not (l : Lit) : l ≠ l.not := by
  intro h; have := congrArg Lit.neg h; simp [Lit.not] at this

theorem Lit.not_inj {a b : Lit} (h : a.not = b.not) : a = b := by
  have := congrArg Lit.not h; simpa using this

theorem Assignment.varValue_ofModel (m : Asg) (n v : Nat) :
    (Assignment.ofModel m n).varValue v = if v < n then TV.ofBool (m v) else .dc := by
  unfold Assignment.varValue Assignment.ofModel
  split
  · next h => simp [List.getD, h]
  · next h => simp [List.getD, h]

theorem Assignment.litValue_ofModel (m : Asg) (n : Nat) (l : Lit) (h : l.var < n) :
    (Assignment.ofModel m n).litValue l = TV.ofBool (l.eval m) := by
  unfold Assignment.litValue
  rw [Assignment.varValue_ofModel, if_pos h]
  unfold Lit.eval
  cases m l.var <;> cases l.neg <;> rfl

@[simp] theorem Assignment.length_ofModel (m : Asg) (n : Nat) : (Assignment.ofModel m n).length = n := by
  simp [Assignment.ofModel]

theorem Assignment.truncate_ofModel (m : Asg) (n k : Nat) (h : k < n) :
    (Assignment.ofModel m n).truncate k = Assignment.ofModel m (k + 1) := by
  unfold Assignment.truncate Assignment.ofModel
  rw [← List.map_take, List.take_range, Nat.min_eq_left h]

theorem linear_append (s : Asg) (a b : List (Lit × Nat)) : linear s (a ++ b) = linear s a + linear s b := by
  induction a with
  | nil => simp [linear]
  | cons p a ih => obtain ⟨l, w⟩ := p; simp [linear, ih]; ring

theorem linear_eq_sum (s : Asg) (a : List (Lit × Nat)) :
    linear s a = (a.map fun p => if p.1.eval s = true then p.2 else 0).sum := by
  induction a with
  | nil => simp [linear]
  | cons p a ih =>
    obtain ⟨l, w⟩ := p
    simp only [linear, List.map_cons, List.sum_cons, ih, Lit.eval_iff]

theorem linear_congr {s t : Asg} {a : List (Lit × Nat)} (h : ∀ p ∈ a, s p.1.var = t p.1.var) :
    linear s a = linear t a := by
  induction a with
  | nil => rfl
  | cons p a ih =>
    obtain ⟨l, w⟩ := p
    have h1 : LitTrue s l ↔ LitTrue t l := by
      have := h (l, w) (by simp)
      simp only at this
      unfold LitTrue; rw [this]
    have h2 := ih (fun p hp => h p (by simp [hp]))
    simp only [linear, h1, h2]

/-- The internal cost computed from a solution is the linear function of the model it was read from. -/
theorem Objective.costOf_ofModel (o : Objective) (m : Asg) (n : Nat) (h : ∀ p ∈ o.iter, p.1.var < n) :
    o.costOf (Assignment.ofModel m n) = linear m o.iter := by
  unfold Objective.costOf
  rw [linear_eq_sum]
  congr 1
  apply List.map_congr_left
  intro p hp
  rw [Assignment.litValue_ofModel m n p.1 (h p hp)]
  cases p.1.eval m <;> simp [TV.ofBool]

theorem mapInsert_new {α β} [DecidableEq α] (k : α) (v : β) (m : List (α × β)) (h : k ∉ m.map Prod.fst) :
    mapInsert k v m = m ++ [(k, v)] := by
  induction m with
  | nil => rfl
  | cons p m ih =>
    obtain ⟨k', v'⟩ := p
    simp only [List.map_cons, List.mem_cons, not_or] at h
    simp only [mapInsert]
    rw [if_neg (Ne.symm h.1), ih h.2]; rfl

theorem foldl_mapInsert_nodup {α β} [DecidableEq α] (l m : List (α × β)) (h : ((m ++ l).map Prod.fst).Nodup) :
    l.foldl (fun m p => mapInsert p.1 p.2 m) m = m ++ l := by
  induction l generalizing m with
  | nil => simp
  | cons p l ih =>
    simp only [List.foldl_cons]
    have hp : p.1 ∉ m.map Prod.fst := by
      simp only [List.map_append, List.map_cons] at h
      have := List.nodup_append.1 h
      intro hm
      exact (this.2.2 p.1 hm p.1 (by simp)) rfl
    rw [mapInsert_new _ _ _ hp, ih]
    · simp
    · simpa using h

theorem mapCollect_nodup {α β} [DecidableEq α] (l : List (α × β)) (h : (l.map Prod.fst).Nodup) : mapCollect l = l := by
  unfold mapCollect; rw [foldl_mapInsert_nodup]; · simp
  · simpa using h

end Scuttle
