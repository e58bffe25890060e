import Verif.Proof.Basic
import Verif.Model.Kernel

/-!
# C41: blocking clauses
-/

namespace Scuttle

open Spec

theorem mem_toLitsFrom (k : Nat) (a : List TV) (l : Lit) :
    l ∈ Assignment.toLitsFrom k a ↔ k ≤ l.var ∧ a[l.var - k]? = some (TV.ofBool (!l.neg)) := by
  induction a generalizing k with
  | nil => simp [Assignment.toLitsFrom]
  | cons t ts ih =>
    simp only [Assignment.toLitsFrom, List.mem_append, ih]
    rcases Nat.lt_trichotomy k l.var with h | h | h
    · have h1 : l.var - k = (l.var - (k + 1)) + 1 := by omega
      rw [h1, List.getElem?_cons_succ]
      have : ¬ (l ∈ (Assignment.litOf t k).toList) := by
        cases t <;> simp [Assignment.litOf] <;> rintro rfl <;> simp at h
      constructor
      · rintro (hh | hh)
        · exact absurd hh this
        · exact ⟨by omega, hh.2⟩
      · intro hh; exact .inr ⟨h, hh.2⟩
    · subst h
      obtain ⟨v, n⟩ := l
      simp only [Nat.sub_self, List.getElem?_cons_zero, Option.some.injEq]
      cases t <;> cases n <;> simp [Assignment.litOf, TV.ofBool]
    · have : ¬ (l ∈ (Assignment.litOf t k).toList) := by
        cases t <;> simp [Assignment.litOf] <;> rintro rfl <;> simp at h
      constructor
      · rintro (hh | hh)
        · exact absurd hh this
        · omega
      · intro hh; omega

theorem mem_toLits (a : Assignment) (l : Lit) : l ∈ a.toLits ↔ a[l.var]? = some (TV.ofBool (!l.neg)) := by
  unfold Assignment.toLits; rw [mem_toLitsFrom]; simp

/-- `s` agrees with `sol` on each variable that has a value in `sol`. -/
def AgreesWith (s : Asg) (sol : Assignment) : Prop := ∀ v b, sol[v]? = some (TV.ofBool b) → s v = b

/-- **C41.** The default blocking clause is violated exactly by the assignments that agree with the solution on the
variables assigned there. -/
theorem defaultBlockingClause_spec (sol : Assignment) (s : Asg) :
    (¬ ∃ l ∈ defaultBlockingClause sol, LitTrue s l) ↔ AgreesWith s sol := by
  unfold defaultBlockingClause AgreesWith
  constructor
  · intro h v b hv
    by_contra hne
    apply h
    refine ⟨(⟨v, !b⟩ : Lit).not, List.mem_map.2 ⟨⟨v, !b⟩, ?_, rfl⟩, ?_⟩
    · rw [mem_toLits]; simpa using hv
    · simp only [LitTrue, Lit.not]; cases hs : s v <;> cases b <;> simp_all
  · rintro h ⟨l, hl, ht⟩
    obtain ⟨l', hl', rfl⟩ := List.mem_map.1 hl
    rw [mem_toLits] at hl'
    have := h _ _ hl'
    simp only [LitTrue, Lit.not] at ht
    rw [this] at ht
    cases h : l'.neg <;> simp_all

example : AgreesWith (fun v => v == 0) [.tt, .ff, .dc] ∧ ¬ AgreesWith (fun v => v == 1) [.tt, .ff, .dc] := by
  constructor
  · intro v b h
    match v with
    | 0 => cases b <;> simp_all [TV.ofBool]
    | 1 => cases b <;> simp_all [TV.ofBool]
    | 2 => cases b <;> simp_all [TV.ofBool]
    | v + 3 => simp at h
  · intro h; have := h 0 true rfl; simp at this

theorem mem_mcsLits (objs : List Objective) (sol : Assignment) (l : Lit) :
    l ∈ mcsLits objs sol ↔ sol.litValue l.not = .tt ∧ ∃ o ∈ objs, l.not ∈ o.iter.map Prod.fst := by
  unfold mcsLits
  simp only [List.mem_flatMap, List.mem_filterMap, List.mem_map]
  constructor
  · rintro ⟨o, ho, p, hp, hpl⟩
    split at hpl
    · next hv =>
      simp only [Option.some.injEq] at hpl
      subst hpl
      simp only [Lit.not_not]
      exact ⟨hv, o, ho, p, hp, rfl⟩
    · simp at hpl
  · rintro ⟨hv, o, ho, p, hp, hpl⟩
    refine ⟨o, ho, p, hp, ?_⟩
    rw [hpl, if_pos hv]; simp

theorem litValue_not_tt (sol : Assignment) (l : Lit) (h : sol.litValue l = .tt) : sol.litValue l.not ≠ .tt := by
  unfold Assignment.litValue Lit.not at *
  revert h
  cases sol.varValue l.var <;> cases l.neg <;> simp

/-- **C41.** `block_pareto_mcs` never meets a tautology, and its clause is violated exactly by the assignments that set
every objective literal that is set in the solution. -/
theorem blockParetoMcs_spec (objs : List Objective) (sol : Assignment) :
    ∃ c, blockParetoMcs objs sol = some c ∧ ∀ s : Asg,
      (¬ ∃ l ∈ c, LitTrue s l) ↔
        ∀ o ∈ objs, ∀ l ∈ o.iter.map Prod.fst, sol.litValue l = .tt → LitTrue s l := by
  unfold blockParetoMcs normalizeClause
  rw [if_neg]
  · refine ⟨_, rfl, fun s => ?_⟩
    simp only [List.mem_eraseDups, mem_mcsLits]
    constructor
    · intro h o ho l hl hv
      by_contra hns
      apply h
      refine ⟨l.not, ⟨by simpa using hv, o, ho, by simpa using hl⟩, ?_⟩
      rw [← Lit.eval_iff] at *
      simpa using hns
    · rintro h ⟨l, ⟨hv, o, ho, hl⟩, ht⟩
      have := h o ho _ hl hv
      rw [← Lit.eval_iff] at *
      simp [ht] at this
  · intro h
    rw [List.any_eq_true] at h
    obtain ⟨l, hl, hl'⟩ := h
    have hl2 : l.not ∈ mcsLits objs sol := by simpa using hl'
    rw [mem_mcsLits] at hl hl2
    have := litValue_not_tt sol l.not hl.1
    exact this hl2.1

example : blockParetoMcs [Objective.new [(Lit.pos 0, 1), (Lit.pos 1, 1)] 0 0, Objective.new [(Lit.pos 0, 2), (Lit.negOf 2, 1)] 0 1]
    [.tt, .ff, .ff] = some [Lit.negOf 0, Lit.pos 2] := by decide

end Scuttle
