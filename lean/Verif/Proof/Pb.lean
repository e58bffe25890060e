import Verif.SpecProof
import Mathlib.Algebra.BigOperators.Group.Finset.Basic
import Mathlib.Algebra.BigOperators.Ring.Finset
import Mathlib.Algebra.Order.Ring.Int
import Mathlib.Tactic.Linarith
import Mathlib.Tactic.Ring

/-!
# Lemmas about pseudo-Boolean constraints
-/

namespace Scuttle

set_option linter.unusedSectionVars false

variable {V : Type}

namespace Axm

theorem val_nonneg (ρ : V → Bool) (a : Axm V) : 0 ≤ a.val ρ := by unfold val; split <;> omega

theorem val_le_one (ρ : V → Bool) (a : Axm V) : a.val ρ ≤ 1 := by unfold val; split <;> omega

theorem val_not (ρ : V → Bool) (a : Axm V) : a.not.val ρ = 1 - a.val ρ := by
  unfold val not
  cases h : ρ a.var <;> cases h' : a.neg <;> simp

theorem val_eq_one (ρ : V → Bool) (a : Axm V) : a.val ρ = 1 ↔ ρ a.var = !a.neg := by
  unfold val
  cases h : ρ a.var <;> cases h' : a.neg <;> simp

theorem val_eq_zero (ρ : V → Bool) (a : Axm V) : a.val ρ = 0 ↔ ρ a.var = a.neg := by
  unfold val
  cases h : ρ a.var <;> cases h' : a.neg <;> simp

theorem val_eq (ρ : V → Bool) (a : Axm V) :
    a.val ρ = (if a.neg then 1 else 0) + (if a.neg then -1 else 1) * (if ρ a.var then 1 else 0) := by
  unfold val
  cases h : ρ a.var <;> cases h' : a.neg <;> simp

@[simp] theorem not_not (a : Axm V) : a.not.not = a := by simp [not]

@[simp] theorem not_var (a : Axm V) : a.not.var = a.var := rfl

end Axm

namespace LbCon

theorem slack_def (ρ : V → Bool) (c : LbCon V) : c.slack ρ = (c.lits.map fun p => p.1 * p.2.val ρ).sum - c.bound := rfl

theorem holds_iff (ρ : V → Bool) (c : LbCon V) : c.Holds ρ ↔ 0 ≤ c.slack ρ := by
  unfold Holds slack; omega

theorem lhs_add (ρ : V → Bool) (c d : LbCon V) : (c.add d).lhs ρ = c.lhs ρ + d.lhs ρ := by
  simp [lhs, add]

theorem slack_add (ρ : V → Bool) (c d : LbCon V) : (c.add d).slack ρ = c.slack ρ + d.slack ρ := by
  unfold slack; rw [lhs_add]; simp only [add]; omega

theorem sum_map_mul (l : List (Int × Axm V)) (ρ : V → Bool) (n : Int) :
    (l.map fun p => n * p.1 * p.2.val ρ).sum = n * (l.map fun p => p.1 * p.2.val ρ).sum := by
  induction l with
  | nil => simp
  | cons p l ih => simp only [List.map_cons, List.sum_cons, ih]; ring

theorem slack_mul (ρ : V → Bool) (c : LbCon V) (n : Nat) : (c.mul n).slack ρ = n * c.slack ρ := by
  unfold slack lhs mul
  simp only [List.map_map, Function.comp_def]
  rw [sum_map_mul]; ring

theorem lhs_neg (ρ : V → Bool) (c : LbCon V) : c.neg.lhs ρ = - c.lhs ρ := by
  unfold lhs neg
  simp only [List.map_map, Function.comp_def]
  have := sum_map_mul c.lits ρ (-1)
  simp only [neg_mul, one_mul] at this ⊢
  exact this

theorem slack_neg (ρ : V → Bool) (c : LbCon V) : c.neg.slack ρ = - c.slack ρ - 1 := by
  unfold slack; rw [lhs_neg]; simp only [neg]; omega

theorem holds_neg (ρ : V → Bool) (c : LbCon V) : c.neg.Holds ρ ↔ ¬ c.Holds ρ := by
  rw [holds_iff, holds_iff, slack_neg]; omega

theorem slack_clause (ρ : V → Bool) (ls : List (Axm V)) :
    (clause ls).slack ρ = (ls.map fun a => a.val ρ).sum - 1 := by
  unfold slack lhs clause
  simp [List.map_map, Function.comp_def]

theorem sum_nonneg' {l : List Int} (h : ∀ x ∈ l, 0 ≤ x) : 0 ≤ l.sum := by
  induction l with
  | nil => simp
  | cons a l ih =>
    rw [List.sum_cons]
    have h1 := h a (List.mem_cons_self ..)
    have h2 := ih fun x hx => h x (List.mem_cons_of_mem _ hx)
    omega

theorem sum_val_nonneg (ρ : V → Bool) (ls : List (Axm V)) : 0 ≤ (ls.map fun a => a.val ρ).sum := by
  induction ls with
  | nil => simp
  | cons a l ih => simp only [List.map_cons, List.sum_cons]; have := a.val_nonneg ρ; omega

/-- A clause is satisfied if one of its literals is true. -/
theorem holds_clause (ρ : V → Bool) (ls : List (Axm V)) : (clause ls).Holds ρ ↔ ∃ a ∈ ls, ρ a.var = !a.neg := by
  rw [holds_iff, slack_clause]
  induction ls with
  | nil => simp
  | cons a l ih =>
    simp only [List.map_cons, List.sum_cons, List.mem_cons, exists_eq_or_imp]
    rw [← ih, ← Axm.val_eq_one]
    have h1 := a.val_nonneg ρ
    have h2 := a.val_le_one ρ
    have h3 := sum_val_nonneg ρ l
    omega

/-! ## Constraints that say the same -/

theorem Same.refl (c : LbCon V) : Same c c := fun _ => rfl

theorem Same.symm {c d : LbCon V} (h : Same c d) : Same d c := fun ρ => (h ρ).symm

theorem Same.trans {c d e : LbCon V} (h : Same c d) (h' : Same d e) : Same c e := fun ρ => (h ρ).trans (h' ρ)

theorem Same.holds {c d : LbCon V} (h : Same c d) (ρ : V → Bool) : c.Holds ρ ↔ d.Holds ρ := by
  rw [holds_iff, holds_iff, h ρ]

theorem Same.add {c d c' d' : LbCon V} (h : Same c c') (h' : Same d d') : Same (c.add d) (c'.add d') := fun ρ => by
  rw [slack_add, slack_add, h ρ, h' ρ]

theorem Same.mul {c c' : LbCon V} (h : Same c c') (n : Nat) : Same (c.mul n) (c'.mul n) := fun ρ => by
  rw [slack_mul, slack_mul, h ρ]

section Norm

variable [DecidableEq V]

/-- Value of a variable as a number. -/
def bit (b : Bool) : Int := if b then 1 else 0

theorem lits_sum (l : List (Int × Axm V)) (ρ : V → Bool) (S : Finset V) (hS : ∀ p ∈ l, p.2.var ∈ S) :
    (l.map fun p => p.1 * p.2.val ρ).sum = (l.map fun p => if p.2.neg then p.1 else 0).sum +
      ∑ v ∈ S, (l.map fun p => if p.2.var = v then (if p.2.neg then -p.1 else p.1) else 0).sum * bit (ρ v) := by
  induction l with
  | nil => simp
  | cons p l ih =>
    simp only [List.map_cons, List.sum_cons, add_mul, Finset.sum_add_distrib]
    rw [ih fun q hq => hS q (List.mem_cons_of_mem _ hq)]
    have h : ∑ v ∈ S, (if p.2.var = v then (if p.2.neg = true then -p.1 else p.1) else 0) * bit (ρ v) =
        (if p.2.neg then -p.1 else p.1) * bit (ρ p.2.var) := by
      rw [Finset.sum_eq_single p.2.var]
      · simp
      · intro v _ hv; rw [if_neg (Ne.symm hv)]; simp
      · intro hp; exact absurd (hS p (List.mem_cons_self ..)) hp
    rw [h, Axm.val_eq]
    unfold bit
    cases p.2.neg <;> cases ρ p.2.var <;> simp <;> ring

theorem mem_vars {c : LbCon V} {v : V} : v ∈ c.vars ↔ ∃ p ∈ c.lits, p.2.var = v := by
  simp [vars]

theorem coefAt_eq_zero {c : LbCon V} {v : V} (h : v ∉ c.vars) : c.coefAt v = 0 := by
  unfold coefAt
  rw [mem_vars] at h
  push Not at h
  apply List.sum_eq_zero
  intro x hx
  rw [List.mem_map] at hx
  obtain ⟨p, hp, rfl⟩ := hx
  simp [h p hp]

/-- The sum in terms of variables. -/
theorem lhs_eq (c : LbCon V) (ρ : V → Bool) (S : Finset V) (hS : ∀ v ∈ c.vars, v ∈ S) :
    c.lhs ρ = c.negSum + ∑ v ∈ S, c.coefAt v * bit (ρ v) :=
  lits_sum c.lits ρ S fun p hp => hS _ (mem_vars.2 ⟨p, hp, rfl⟩)

/-- Sum over the variables of a constraint as a sum over a larger set. -/
theorem vars_sum (c : LbCon V) (f : V → Int) (S : Finset V) (hS : ∀ v ∈ c.vars, v ∈ S)
    (h0 : ∀ v, c.coefAt v = 0 → f v = 0) : (c.vars.map f).sum = ∑ v ∈ S, f v := by
  rw [← List.sum_toFinset f (show c.vars.Nodup from List.nodup_dedup _)]
  apply Finset.sum_subset
  · intro v hv; exact hS v (List.mem_toFinset.1 hv)
  · intro v _ hv; exact h0 v (coefAt_eq_zero fun h => hv (List.mem_toFinset.2 h))

/-- Literal that has a coefficient which is not negative. -/
def posLit (a : Int) (b : Bool) : Int := if a < 0 then 1 - bit b else bit b

theorem term_val (v : V) (a : Int) (ρ : V → Bool) (g : Int → Int) :
    g (term v a).1 * (term v a).2.val ρ = g |a| * posLit a (ρ v) := by
  unfold term posLit bit Axm.val
  by_cases h : a < 0
  · rw [if_pos h, if_pos h, abs_of_neg h]; cases ρ v <;> simp
  · rw [if_neg h, if_neg h, abs_of_nonneg (by omega)]; cases ρ v <;> simp

theorem abs_posLit (a : Int) (b : Bool) : |a| * posLit a b = a * bit b + (if a < 0 then -a else 0) := by
  unfold posLit
  by_cases h : a < 0
  · rw [if_pos h, if_pos h, abs_of_neg h]; ring
  · rw [if_neg h, if_neg h, abs_of_nonneg (by omega)]; ring

/-- Sum of a constraint whose normal form has other coefficients. -/
theorem lhs_norm_map (c : LbCon V) (g : Int → Int) (hg : g 0 = 0) (b : Int) (ρ : V → Bool) (S : Finset V)
    (hS : ∀ v ∈ c.vars, v ∈ S) :
    (⟨c.norm.lits.map fun p => (g p.1, p.2), b⟩ : LbCon V).lhs ρ =
      ∑ v ∈ S, g |c.coefAt v| * posLit (c.coefAt v) (ρ v) := by
  unfold lhs norm
  simp only [List.map_map, Function.comp_def, term_val]
  exact vars_sum c _ S hS fun v hv => by simp [hv, hg]

theorem degree_eq (c : LbCon V) (S : Finset V) (hS : ∀ v ∈ c.vars, v ∈ S) :
    c.degree = c.bound - c.negSum + ∑ v ∈ S, (if c.coefAt v < 0 then -c.coefAt v else 0) := by
  unfold degree
  rw [vars_sum c _ S hS fun v hv => by simp [hv]]

/-- The slack in terms of the normal form. -/
theorem slack_eq (c : LbCon V) (ρ : V → Bool) (S : Finset V) (hS : ∀ v ∈ c.vars, v ∈ S) :
    c.slack ρ = (∑ v ∈ S, |c.coefAt v| * posLit (c.coefAt v) (ρ v)) - c.degree := by
  rw [degree_eq c S hS, slack, lhs_eq c ρ S hS]
  simp only [abs_posLit, Finset.sum_add_distrib]
  omega

theorem same_norm (c : LbCon V) : Same c c.norm := fun ρ => by
  rw [slack_eq c ρ c.vars.toFinset fun v hv => List.mem_toFinset.2 hv]
  have := lhs_norm_map c id rfl c.degree ρ c.vars.toFinset fun v hv => List.mem_toFinset.2 hv
  simp only [id, List.map_id'] at this
  rw [← this]; rfl

theorem coefAt_slack (c : LbCon V) (ρ : V → Bool) (v : V) :
    c.coefAt v = c.slack (Function.update ρ v true) - c.slack (Function.update ρ v false) := by
  let S := insert v c.vars.toFinset
  have hS : ∀ w ∈ c.vars, w ∈ S := fun w hw => Finset.mem_insert_of_mem (List.mem_toFinset.2 hw)
  unfold slack
  rw [lhs_eq c _ S hS, lhs_eq c _ S hS]
  have hv : v ∈ S := Finset.mem_insert_self ..
  rw [← Finset.add_sum_erase S _ hv, ← Finset.add_sum_erase S _ hv]
  have h : ∑ w ∈ S.erase v, c.coefAt w * bit (Function.update ρ v true w) =
      ∑ w ∈ S.erase v, c.coefAt w * bit (Function.update ρ v false w) := by
    apply Finset.sum_congr rfl
    intro w hw
    have := Finset.ne_of_mem_erase hw
    simp [Function.update_of_ne this]
  rw [h]
  simp [bit]

theorem Same.coefAt {c d : LbCon V} (h : Same c d) (v : V) : c.coefAt v = d.coefAt v := by
  rw [coefAt_slack c (fun _ => false), coefAt_slack d (fun _ => false), h, h]

theorem degree_slack (c : LbCon V) : c.degree = - c.slack fun v => decide (c.coefAt v < 0) := by
  rw [slack_eq c _ c.vars.toFinset fun v hv => List.mem_toFinset.2 hv]
  rw [Finset.sum_eq_zero]
  · omega
  · intro v _
    by_cases h : c.coefAt v < 0 <;> simp [posLit, bit, h]

theorem Same.degree {c d : LbCon V} (h : Same c d) : c.degree = d.degree := by
  rw [degree_slack, degree_slack, h]
  simp only [h.coefAt]

theorem Same.normMap {c d : LbCon V} (h : Same c d) (g : Int → Int) (hg : g 0 = 0) (b : Int) :
    Same (⟨c.norm.lits.map fun p => (g p.1, p.2), b⟩ : LbCon V) ⟨d.norm.lits.map fun p => (g p.1, p.2), b⟩ := fun ρ => by
  let S := c.vars.toFinset ∪ d.vars.toFinset
  unfold slack
  rw [lhs_norm_map c g hg b ρ S fun v hv => Finset.mem_union_left _ (List.mem_toFinset.2 hv),
    lhs_norm_map d g hg b ρ S fun v hv => Finset.mem_union_right _ (List.mem_toFinset.2 hv)]
  simp only [h.coefAt]

theorem ceilDiv_zero (n : Nat) : ceilDiv 0 n = 0 := by simp [ceilDiv]

theorem Same.saturate {c d : LbCon V} (h : Same c d) : Same c.saturate d.saturate := by
  unfold LbCon.saturate
  rw [h.degree]
  exact h.normMap (fun a => min a (max d.degree 0)) (by simp) _

theorem Same.div {c d : LbCon V} (h : Same c d) (n : Nat) : Same (c.div n) (d.div n) := by
  unfold LbCon.div
  rw [h.degree]
  exact h.normMap (fun a => ceilDiv a n) (ceilDiv_zero n) _

/-! ## Constraints in normal form -/

/-- Each variable occurs once and no coefficient is negative. -/
structure Normal (c : LbCon V) : Prop where
  nodup : (c.lits.map fun p => p.2.var).Nodup
  nonneg : ∀ p ∈ c.lits, 0 ≤ p.1

omit [DecidableEq V] in
theorem Normal.tail {p : Int × Axm V} {l : List (Int × Axm V)} {b : Int} (h : Normal ⟨p :: l, b⟩) : Normal ⟨l, b⟩ :=
  ⟨(List.nodup_cons.1 h.nodup).2, fun q hq => h.nonneg q (List.mem_cons_of_mem _ hq)⟩

theorem Normal.coefAt {c : LbCon V} (h : Normal c) {p : Int × Axm V} (hp : p ∈ c.lits) :
    c.coefAt p.2.var = if p.2.neg then -p.1 else p.1 := by
  obtain ⟨l, b⟩ := c
  induction l with
  | nil => simp at hp
  | cons q l ih =>
    have hz : ∀ r ∈ l, r.2.var ≠ q.2.var := by
      have := (List.nodup_cons.1 h.nodup).1
      intro r hr he
      exact this (List.mem_map.2 ⟨r, hr, he⟩)
    unfold LbCon.coefAt
    simp only [List.map_cons, List.sum_cons]
    rcases List.mem_cons.1 hp with rfl | hp'
    · rw [if_pos rfl]
      have : (l.map fun r => if r.2.var = p.2.var then (if r.2.neg then -r.1 else r.1) else 0).sum = 0 := by
        apply List.sum_eq_zero
        intro x hx
        obtain ⟨r, hr, rfl⟩ := List.mem_map.1 hx
        simp [hz r hr]
      rw [this]; simp
    · rw [if_neg (Ne.symm (hz p hp'))]
      have := ih h.tail hp'
      unfold LbCon.coefAt at this
      simp only at this
      rw [this]; simp

theorem Normal.degree {c : LbCon V} (h : Normal c) : c.degree = c.bound := by
  rw [degree_slack]
  unfold slack lhs
  have : (c.lits.map fun p => p.1 * p.2.val fun v => decide (c.coefAt v < 0)).sum = 0 := by
    apply List.sum_eq_zero
    intro x hx
    obtain ⟨p, hp, rfl⟩ := List.mem_map.1 hx
    have hn := h.nonneg p hp
    rw [Axm.val, h.coefAt hp]
    cases p.2.neg
    · simp; intro h'; omega
    · by_cases h0 : p.1 = 0
      · simp [h0]
      · simp; intro h'; omega
  rw [this]; omega

theorem Normal.normMap {c : LbCon V} (h : Normal c) (g : Int → Int) (hg : g 0 = 0) (b : Int) :
    Same (⟨c.norm.lits.map fun p => (g p.1, p.2), b⟩ : LbCon V) ⟨c.lits.map fun p => (g p.1, p.2), b⟩ := fun ρ => by
  unfold slack lhs norm vars
  rw [h.nodup.dedup]
  simp only [List.map_map, Function.comp_def]
  congr 2
  apply List.map_congr_left
  intro p hp
  have hn := h.nonneg p hp
  rw [h.coefAt hp, term_val]
  unfold posLit bit Axm.val
  rcases Int.lt_or_eq_of_le hn with h0 | h0
  · cases p.2.neg
    · simp only [Bool.false_eq_true, if_false, abs_of_pos h0, show ¬ p.1 < 0 by omega]
      cases ρ p.2.var <;> simp
    · simp only [if_true, abs_neg, abs_of_pos h0, show -p.1 < 0 by omega]
      cases ρ p.2.var <;> simp
  · rw [← h0]; simp [hg]

/-- Saturation of a constraint in normal form. -/
theorem Normal.saturate {c : LbCon V} (h : Normal c) :
    Same c.saturate ⟨c.lits.map fun p => (min p.1 (max c.bound 0), p.2), c.bound⟩ := by
  unfold LbCon.saturate
  rw [h.degree]
  exact h.normMap (fun a => min a (max c.bound 0)) (by simp) _

/-- Division of a constraint in normal form. -/
theorem Normal.div {c : LbCon V} (h : Normal c) (n : Nat) :
    Same (c.div n) ⟨c.lits.map fun p => (ceilDiv p.1 n, p.2), ceilDiv c.bound n⟩ := by
  unfold LbCon.div
  rw [h.degree]
  exact h.normMap (fun a => ceilDiv a n) (ceilDiv_zero n) _

theorem norm_normal (c : LbCon V) : Normal c.norm := by
  constructor
  · unfold norm
    simp only [List.map_map, Function.comp_def]
    have : (fun v : V => (term v (c.coefAt v)).2.var) = id := by
      funext v; unfold term; split <;> rfl
    rw [this, List.map_id]
    exact List.nodup_dedup _
  · intro p hp
    unfold norm at hp
    obtain ⟨v, _, rfl⟩ := List.mem_map.1 hp
    unfold term
    split <;> simp <;> omega

/-! ## Soundness of the operations -/

theorem holds_add {ρ : V → Bool} {c d : LbCon V} (h : c.Holds ρ) (h' : d.Holds ρ) : (c.add d).Holds ρ := by
  rw [holds_iff] at *; rw [slack_add]; omega

theorem holds_mul {ρ : V → Bool} {c : LbCon V} (h : c.Holds ρ) (n : Nat) : (c.mul n).Holds ρ := by
  rw [holds_iff] at *; rw [slack_mul]; exact Int.mul_nonneg (by omega) h

theorem le_ceilDiv (a : Int) {n : Nat} (hn : 0 < n) : a ≤ n * ceilDiv a n := by
  unfold ceilDiv
  have := Int.mul_ediv_self_le (x := -a) (k := (n : Int)) (by omega)
  have h2 : (n : Int) * -(-a / n) = - (n * (-a / n)) := by ring
  omega

theorem ceilDiv_le {a : Int} {n : Nat} (hn : 0 < n) {b : Int} (h : a ≤ n * b) : ceilDiv a n ≤ b := by
  unfold ceilDiv
  have : -b ≤ -a / n := by
    rw [Int.le_ediv_iff_mul_le (by omega)]
    have : -b * (n : Int) = -(n * b) := by ring
    omega
  omega

theorem holds_saturate_normal {ρ : V → Bool} {c : LbCon V} (hn : Normal c) (h : c.Holds ρ) :
    (⟨c.lits.map fun p => (min p.1 (max c.bound 0), p.2), c.bound⟩ : LbCon V).Holds ρ := by
  unfold Holds lhs at *
  simp only [List.map_map, Function.comp_def] at *
  by_cases hb : c.bound ≤ 0
  · have : 0 ≤ (c.lits.map fun p => min p.1 (max c.bound 0) * p.2.val ρ).sum := by
      apply sum_nonneg'
      intro x hx
      obtain ⟨p, hp, rfl⟩ := List.mem_map.1 hx
      have h1 := hn.nonneg p hp
      exact Int.mul_nonneg (by omega) (Axm.val_nonneg ..)
    omega
  · generalize hB : c.bound = B at *
    have hB0 : max B 0 = B := by omega
    rw [hB0]
    have key : ∀ l : List (Int × Axm V), (∀ p ∈ l, 0 ≤ p.1) → ∀ D, D ≤ (l.map fun p => p.1 * p.2.val ρ).sum → D ≤ B →
        D ≤ (l.map fun p => min p.1 B * p.2.val ρ).sum := by
      intro l
      induction l with
      | nil => intro _ D h _; simpa using h
      | cons p l ih =>
        intro hp D hD hDB
        simp only [List.map_cons, List.sum_cons] at *
        have hnn : 0 ≤ (l.map fun p => min p.1 B * p.2.val ρ).sum := by
          apply sum_nonneg'
          intro x hx
          obtain ⟨q, hq, rfl⟩ := List.mem_map.1 hx
          have := hp q (List.mem_cons_of_mem _ hq)
          exact Int.mul_nonneg (by omega) (Axm.val_nonneg ..)
        have ih := ih fun q hq => hp q (List.mem_cons_of_mem _ hq)
        have h0 := Axm.val_nonneg ρ p.2
        have h1 := Axm.val_le_one ρ p.2
        by_cases hv : p.2.val ρ = 0
        · rw [hv] at hD ⊢
          have := ih D (by omega) hDB
          omega
        · have hv1 : p.2.val ρ = 1 := by omega
          rw [hv1] at hD ⊢
          by_cases hm : p.1 ≤ B
          · have := ih (D - p.1) (by omega) (by have := hp p (List.mem_cons_self ..); omega)
            rw [Int.min_eq_left hm]; omega
          · rw [Int.min_eq_right (by omega)]; omega
    exact key c.lits hn.nonneg B h (by omega)

theorem holds_saturate {ρ : V → Bool} {c : LbCon V} (h : c.Holds ρ) : c.saturate.Holds ρ := by
  have h1 : c.norm.Holds ρ := ((same_norm c).holds ρ).1 h
  have h2 := holds_saturate_normal (norm_normal c) h1
  have h3 : c.norm.bound = c.degree := rfl
  rw [h3] at h2
  unfold saturate
  exact h2

theorem holds_div_normal {ρ : V → Bool} {c : LbCon V} (h : c.Holds ρ) {n : Nat} (hn : 0 < n) :
    (⟨c.lits.map fun p => (ceilDiv p.1 n, p.2), ceilDiv c.bound n⟩ : LbCon V).Holds ρ := by
  unfold Holds lhs at *
  simp only [List.map_map, Function.comp_def]
  apply ceilDiv_le hn
  refine h.trans ?_
  clear h
  induction c.lits with
  | nil => simp
  | cons p l ih =>
    simp only [List.map_cons, List.sum_cons, mul_add]
    have h1 := le_ceilDiv p.1 hn
    have h2 : p.1 * p.2.val ρ ≤ n * ceilDiv p.1 n * p.2.val ρ := Int.mul_le_mul_of_nonneg_right h1 (Axm.val_nonneg ..)
    rw [mul_assoc] at h2
    omega

theorem holds_div {ρ : V → Bool} {c : LbCon V} (h : c.Holds ρ) {n : Nat} (hn : 0 < n) : (c.div n).Holds ρ := by
  have h2 := holds_div_normal (((same_norm c).holds ρ).1 h) hn
  have h3 : c.norm.bound = c.degree := rfl
  rw [h3] at h2
  unfold div
  exact h2

end Norm

end LbCon

/-- What an operation sequence derives is implied by the constraints in the database. -/
theorem Ops.eval_sound [DecidableEq V] {db : ConDb V} {ρ : V → Bool}
    (h : ∀ i c, db.find i = some c → c.Holds ρ) : ∀ {o : Ops} {c : LbCon V}, o.eval db = some c → c.Holds ρ := by
  intro o
  induction o with
  | empty => intro c hc; simp [Ops.eval] at hc
  | id i => intro c hc; exact h i c hc
  | add a b iha ihb =>
    intro c hc
    simp only [Ops.eval, Option.bind_eq_bind, Option.bind_eq_some_iff, Option.some.injEq] at hc
    obtain ⟨x, hx, y, hy, rfl⟩ := hc
    exact LbCon.holds_add (iha hx) (ihb hy)
  | mul a n ih =>
    intro c hc
    simp only [Ops.eval, Option.map_eq_some_iff] at hc
    obtain ⟨x, hx, rfl⟩ := hc
    exact LbCon.holds_mul (ih hx) n
  | div a n ih =>
    intro c hc
    simp only [Ops.eval] at hc
    split at hc
    · simp at hc
    · rename_i hn
      simp only [Option.map_eq_some_iff] at hc
      obtain ⟨x, hx, rfl⟩ := hc
      exact LbCon.holds_div (ih hx) (by omega)
  | saturate a ih =>
    intro c hc
    simp only [Ops.eval, Option.map_eq_some_iff] at hc
    obtain ⟨x, hx, rfl⟩ := hc
    exact LbCon.holds_saturate (ih hx)

end Scuttle
