import Verif.SpecAnswers
import Verif.Props.BosPrinted

/-!
# C76: what a user reads off the printed front
-/

set_option linter.unusedSectionVars false

namespace Scuttle

open Spec

variable {P C D : Type} [UbEnc P] [UbEnc C] [TotDb D] [MergeEnc P C D]
variable [LawfulUbEnc P] [LawfulUbEnc C] [LawfulTotDb D] [LawfulMergeEnc P C D] {env : Env} {cli : Cli}
variable {p : Parsed} {enc : PbCon → Nat → List Clause × Nat}

theorem weaklyDominates_trans {a b c : List Int} (h : WeaklyDominates a b) (h' : WeaklyDominates b c) : WeaklyDominates a c := by
  unfold WeaklyDominates at *
  induction h generalizing c with
  | nil => exact h'
  | cons h1 _ ih =>
    cases h' with
    | cons h2 h3 => exact .cons (h1.trans h2) (ih h3)

theorem weaklyDominates_refl (a : List Int) : WeaklyDominates a a := by
  unfold WeaklyDominates
  induction a with
  | nil => exact .nil
  | cons _ _ ih => exact .cons le_rfl ih

theorem weaklyDominates_sum {a b : List Int} (h : WeaklyDominates a b) : a.sum ≤ b.sum ∧ (a.sum = b.sum → a = b) := by
  unfold WeaklyDominates at h
  induction h with
  | nil => simp
  | @cons x y v w h1 _ ih =>
    simp only [List.sum_cons, List.cons.injEq]
    exact ⟨by omega, fun h => ⟨by omega, ih.2 (by omega)⟩⟩

theorem parsedCosts_sum (p : Parsed) (t : Asg) : (p.objs.map fun o => o.offset).sum ≤ (parsedCosts p t).sum := by
  unfold parsedCosts
  induction p.objs with
  | nil => simp
  | cons o os ih => simp only [List.map_cons, List.sum_cons]; omega

/-- Each solution is weakly dominated by one whose costs are on the Pareto front. -/
theorem exists_parsedNonDominated {t : Asg} (ht : ParsedFeasible p t) :
    ∃ v, ParsedNonDominated p v ∧ WeaklyDominates v (parsedCosts p t) := by
  have key : ∀ (k : Nat) t, ParsedFeasible p t → (parsedCosts p t).sum - (p.objs.map fun o => o.offset).sum = k →
      ∃ v, ParsedNonDominated p v ∧ WeaklyDominates v (parsedCosts p t) := by
    intro k
    induction k using Nat.strongRecOn with
    | _ k ih =>
      intro t ht hk
      by_cases hnd : ∀ u, ParsedFeasible p u → ¬ Dominates (parsedCosts p u) (parsedCosts p t)
      · exact ⟨_, ⟨t, ht, hnd, rfl⟩, weaklyDominates_refl _⟩
      · push Not at hnd
        obtain ⟨u, hu, hle, hne⟩ := hnd
        have h1 := weaklyDominates_sum hle
        have h2 : (parsedCosts p u).sum ≠ (parsedCosts p t).sum := fun h => hne (h1.2 h)
        have h3 := parsedCosts_sum p u
        obtain ⟨v, hv, hv'⟩ := ih ((parsedCosts p u).sum - (p.objs.map fun o => o.offset).sum).toNat (by omega) u hu (by omega)
        exact ⟨v, hv, weaklyDominates_trans hv' hle⟩
  have h := parsedCosts_sum p t
  exact key ((parsedCosts p t).sum - (p.objs.map fun o => o.offset).sum).toNat t ht (by omega)

theorem weightedSum_mono (cs : List Nat) {v w : List Int} (h : WeaklyDominates v w) : weightedSum cs v ≤ weightedSum cs w := by
  unfold WeaklyDominates at h
  induction h generalizing cs with
  | nil => exact le_rfl
  | cons h1 _ ih =>
    cases cs with
    | nil => exact le_rfl
    | cons c cs => exact add_le_add (mul_le_mul_of_nonneg_left h1 (by omega)) (ih cs)

theorem answers_of_printed {front : ParetoFront Assignment} (hs : PrintedSound p front) (ha : PrintedAll p front) :
    Answers p front := by
  have hcov : ∀ t, ParsedFeasible p t → ∃ pt ∈ front, WeaklyDominates pt.costs (parsedCosts p t) := by
    intro t ht
    obtain ⟨v, hv, hle⟩ := exists_parsedNonDominated ht
    obtain ⟨pt, hpt, rfl⟩ := List.mem_map.1 (ha v hv)
    exact ⟨pt, hpt, hle⟩
  refine ⟨hcov, ⟨?_, fun h => ?_⟩, fun cs t ht => ?_⟩
  · rintro rfl ⟨t, ht⟩
    obtain ⟨pt, hpt, _⟩ := hcov t ht
    simp at hpt
  · match front, hs with
    | [], _ => rfl
    | pt :: _, hs =>
      obtain ⟨t, ht, _⟩ := hs.costs pt (by simp)
      exact absurd ⟨t, ht⟩ h
  · obtain ⟨pt, hpt, hle⟩ := hcov t ht
    obtain ⟨x, hx⟩ := List.exists_mem_of_ne_nil _ (hs.some pt hpt)
    exact ⟨pt, hpt, ⟨x, hx, hs.sols pt hpt x hx⟩, weightedSum_mono cs hle⟩

theorem lexLe_of_weaklyDominates {v w : List Int} (h : WeaklyDominates v w) : LexLe v w := by
  unfold WeaklyDominates at h
  induction h with
  | nil => trivial
  | cons h1 _ ih =>
    rcases lt_or_eq_of_le h1 with h | h
    · exact Or.inl h
    · exact Or.inr ⟨h, ih⟩

theorem lexLe_of_before {u v w : List Int} (h : Before u v) (hw : WeaklyDominates v w) : LexLe u w := by
  obtain ⟨a, b, c, d, rfl, rfl, h1, _⟩ := h
  unfold WeaklyDominates at hw
  cases hw with
  | cons h2 _ => exact Or.inl (lt_of_lt_of_le h1 h2)

theorem first_of_printedLeft {pt : NonDomPoint Assignment} {pts : ParetoFront Assignment} (hl : PrintedLeft p (pt :: pts))
    {t : Asg} (ht : ParsedFeasible p t) : LexLe pt.costs (parsedCosts p t) := by
  obtain ⟨v, hv, hle⟩ := exists_parsedNonDominated ht
  rcases hl.missing v hv with h | h
  · obtain ⟨q, hq, rfl⟩ := List.mem_map.1 h
    rcases List.mem_cons.1 hq with rfl | hq
    · exact lexLe_of_weaklyDominates hle
    · exact lexLe_of_before ((List.pairwise_cons.1 hl.sorted).1 q hq) hle
  · exact lexLe_of_before (h pt (by simp)) hle

/-- C76: if the program prints a front without a warning, a printed point is at least as good as any solution, nothing is
printed only for instances without solutions, and the best value of each weighted sum is that of a printed solution. -/
theorem subMain_answers (hp : ParsedSetting cli p env) (g : GoodPbEncoding enc) {fuel : Nat} {front : ParetoFront Assignment}
    (h : subMain P C D enc cli fuel env p = .printed [] front) : Answers p front := by
  obtain ⟨h1, h2⟩ := subMain_printed hp g h
  exact answers_of_printed h1 (h2 rfl)

/-- C76: the same with preprocessing by MaxPre. -/
theorem subMainPre_answers {pre : PrePro} (hp : ParsedOK p) (g : GoodPbEncoding enc)
    (hk : PreKeeps pre (preClauses enc p) p.objs) (hs : ParsedSetting cli (preParsed enc pre p) env) {fuel : Nat}
    {front : ParetoFront Assignment} (h : subMainPre P C D enc pre cli fuel env p = .printed [] front) : Answers p front := by
  obtain ⟨h1, h2⟩ := subMainPre_printed hp g hk hs h
  exact answers_of_printed h1 (h2 rfl)

/-- C76: however a run of BiOptSat ends, the first point that is printed is the lexicographic optimum. -/
theorem subMain_first_point (ha : cli.alg = .biOptSat) (hp : ParsedSetting cli p env) (g : GoodPbEncoding enc) {fuel : Nat}
    {w : List Termination} {pt : NonDomPoint Assignment} {pts : ParetoFront Assignment}
    (h : subMain P C D enc cli fuel env p = .printed w (pt :: pts)) {t : Asg} (ht : ParsedFeasible p t) :
    LexLe pt.costs (parsedCosts p t) :=
  first_of_printedLeft (subMain_left_to_right ha hp g h) ht

/-- C76: the same with preprocessing by MaxPre. -/
theorem subMainPre_first_point {pre : PrePro} (ha : cli.alg = .biOptSat) (hp : ParsedOK p) (g : GoodPbEncoding enc)
    (hk : PreKeeps pre (preClauses enc p) p.objs) (hs : ParsedSetting cli (preParsed enc pre p) env) {fuel : Nat}
    {w : List Termination} {pt : NonDomPoint Assignment} {pts : ParetoFront Assignment}
    (h : subMainPre P C D enc pre cli fuel env p = .printed w (pt :: pts)) {t : Asg} (ht : ParsedFeasible p t) :
    LexLe pt.costs (parsedCosts p t) :=
  first_of_printedLeft (subMainPre_left_to_right ha hp g hk hs h) ht

/-! ## Examples -/

theorem Example.printedCosts_eq {e : Exit} {cs : List (List Int)} (h : Example.printedCosts e = some (true, cs)) :
    ∃ front, e = .printed [] front ∧ front.map NonDomPoint.costs = cs := by
  cases e with
  | printed w front =>
    simp only [Example.printedCosts, Option.some.injEq, Prod.mk.injEq, List.isEmpty_iff] at h
    exact ⟨front, by rw [h.1], h.2⟩
  | _ => simp [Example.printedCosts] at h

/-- The hypotheses are met. The first point is the lexicographic optimum, and twice the first plus
the second objective is at least 7. -/
example : ∃ front, Example.main { alg := .biOptSat, kernel := { enumeration := .solutions } } false Example.parsed =
    .printed [] front ∧ front.map NonDomPoint.costs = [[1, 6], [2, 3]] ∧ Answers Example.parsed front ∧
    (∀ t, ParsedFeasible Example.parsed t → LexLe [1, 6] (parsedCosts Example.parsed t)) ∧
    ∀ t, ParsedFeasible Example.parsed t → 7 ≤ weightedSum [2, 1] (parsedCosts Example.parsed t) := by
  obtain ⟨front, h1, h2⟩ := Example.printedCosts_eq
    (e := Example.main { alg := .biOptSat, kernel := { enumeration := .solutions } } false Example.parsed)
    (cs := [[1, 6], [2, 3]]) (by decide +kernel)
  have hset := Example.bosSettings { alg := .biOptSat, kernel := { enumeration := .solutions } } (by simp)
  have h3 := h1
  unfold Example.main at h3
  have ha := subMain_answers hset refPbEnc_good h3
  refine ⟨front, h1, h2, ha, fun t ht => ?_, fun t ht => ?_⟩
  · clear h1 ha
    obtain ⟨pt, pts, rfl, hpt, _⟩ := List.map_eq_cons_iff.1 h2
    rw [← hpt]
    exact subMain_first_point rfl hset refPbEnc_good h3 ht
  · obtain ⟨pt, hpt, _, hle⟩ := ha.best [2, 1] t ht
    have hmem : pt.costs ∈ front.map NonDomPoint.costs := List.mem_map_of_mem hpt
    rw [h2] at hmem
    simp only [List.mem_cons, List.not_mem_nil, or_false] at hmem
    rcases hmem with h | h <;> rw [h] at hle <;> simp only [weightedSum] at hle <;> omega

/-- Constraints that contradict each other. -/
def Example.contradiction : Parsed where
  constraints := [⟨.ge, [(Lit.pos 0, 1), (Lit.pos 1, 1)], 2⟩, ⟨.le, [(Lit.pos 0, 1)], 0⟩]
  objs := [⟨[([Lit.negOf 0], 1)], 0⟩, ⟨[([Lit.negOf 1], 2)], 0⟩]
  vm := ⟨2, 1, 1⟩

theorem Example.contradictionSetting (alg : Alg) : ParsedSetting { alg := alg, cb := { coreBoosting := false } }
    Example.contradiction (refEnv false) where
  ok := ⟨rfl, by decide, by decide, by decide⟩
  weights := ⟨by decide, by decide⟩
  oracle := refEnv_correct false
  cores := refEnv_noDupCores false
  enum := by simp
  unit := by simp
  flat := by simp

/-- The hypotheses are met, and from the empty front one reads off that there is no solution. -/
example : ¬ ∃ t, ParsedFeasible Example.contradiction t := by
  obtain ⟨front, h1, h2⟩ := Example.printedCosts_eq
    (e := Example.main { alg := .lowerBounding, cb := { coreBoosting := false } } false Example.contradiction)
    (cs := []) (by decide +kernel)
  unfold Example.main at h1
  exact (subMain_answers (Example.contradictionSetting .lowerBounding) refPbEnc_good h1).none.1 (List.map_eq_nil_iff.1 h2)

end Scuttle
