import Mathlib.Data.List.Induction
import Verif.Proof.Report
import Verif.Props.Resume
import Verif.Props.Io
import Verif.Props.CoreBoost

/-!
# C43: minimization in the log
-/

set_option linter.unusedSectionVars false

namespace Scuttle

open Spec

variable {P C : Type} [UbEnc P] [UbEnc C]
variable {env : Env} {s : Slv P C} {inst : Instance} {opts : KernelOptions} {bcg : Assignment → Clause} {limits : Limits}

/-- C43: after every call of P-minimal or LowerBounding, however it ends and for every oracle, correct or not, each point
in the log has the costs of the candidate logged last before it. -/
theorem reports_last (alg : Alg) (halg : alg ≠ .biOptSat) (hlog : ∀ l, s.io.logger = some l → ReportsLast s.k.objs l)
    (fuel : Nat) :
    ∀ l, (alg.solve fuel limits env s).2.io.logger = some l → ReportsLast s.k.objs l := fun l hl =>
  ((rep_solve alg halg fuel limits ⟨rfl, fun l hl => ⟨hlog l hl, fun _ h => by cases h⟩⟩).2 l hl).1

variable [LawfulUbEnc P] [LawfulUbEnc C]

/-- C43: in the log of every run on a fresh solver, however it ends, each candidate of a minimization improves on the
candidate before it. -/
theorem minimization_improves (alg : Alg) (hs : Setting inst bcg opts env) (hl : LimitsFine env limits)
    (h0 : Started alg inst bcg opts s) (fuel : Nat) :
    ∀ l, (alg.solve fuel limits env s).2.io.logger = some l → MinimizationImproves l :=
  (run_ok alg hs hl h0 fuel).log

/-- C43: the same after several calls, with loggers attached and detached in between. -/
theorem minimization_improves_calls (alg : Alg) (halg : alg ≠ .biOptSat) (hs : Setting inst bcg opts env)
    (hno : opts.enumeration = .noEnum) (h0 : Started alg inst bcg opts s) (calls : List Call) (hc : CallsFine env calls) :
    ∀ l, (alg.calls env calls s).2.io.logger = some l → MinimizationImproves l :=
  ((fresh_ok hs.wf (started_fresh h0)).between.calls halg hs hno calls hc).1.base.2

/-- C43: the same for a run after core boosting. -/
theorem minimization_improves_boosted {D : Type} [TotDb D] [LawfulTotDb D] [MergeEnc P C D] [LawfulMergeEnc P C D]
    (alg : Alg) {cb : CbOptions} {fuel : Nat}
    (hs : Setting inst bcg opts env) (hl : LimitsFine env limits)
    (nd : NoDupCores env) (hn : NoDupLits inst) (h0 : Started alg inst bcg opts s)
    (hflat : alg = .biOptSat → NotFlat inst) (hb : (coreBoost D fuel cb env s).1 = .ok true) (fuel' : Nat) :
    ∀ l, (alg.solve fuel' limits env (coreBoost D fuel cb env s).2).2.io.logger = some l → MinimizationImproves l := by
  obtain ⟨os, -, -, -, h⟩ := boosted_run alg hs hl nd hn h0 hflat hb fuel'
  exact h.log

theorem Spec.MinimizationImproves.of_append {a b : List LogEvent} (h : MinimizationImproves (a ++ b)) :
    MinimizationImproves a := by
  have hget : ∀ (i : Nat) x, (candidates a)[i]? = some x → (candidates (a ++ b))[i]? = some x := by
    intro i x hx
    rw [candidates_append, List.getElem?_append_left (List.getElem?_eq_some_iff.1 hx).1]
    exact hx
  refine ⟨fun c hc => h.first c (hget _ _ hc), fun i c hc => ?_⟩
  obtain ⟨x, ph, h1, h2⟩ := h.next i c (hget _ _ hc)
  refine ⟨x, ph, ?_, h2⟩
  have := (List.getElem?_eq_some_iff.1 hc).1
  rw [candidates_append, List.getElem?_append_left (by omega)] at h1
  exact h1

/-- The candidate with which the last minimization started. -/
theorem minimization_start {cs : List (List Nat × Phase)} (h1 : ∀ c, cs[0]? ≠ some (c, .minimization))
    (h2 : ∀ i c, cs[i + 1]? = some (c, .minimization) → ∃ b ph, cs[i]? = some (b, ph) ∧ Improves c b)
    {c : List Nat} {ph : Phase} (hc : cs.getLast? = some (c, ph)) :
    ∃ before c0 ph0 run, cs = before ++ (c0, ph0) :: run ∧ ph0 ≠ .minimization ∧ (∀ x ∈ run, x.2 = .minimization) ∧
      List.Forall₂ (· ≤ ·) c c0 := by
  induction cs using List.reverseRecOn generalizing c ph with
  | nil => simp at hc
  | append_singleton cs x ih =>
    simp only [List.getLast?_append, List.getLast?_singleton, Option.some_or, Option.some.injEq] at hc
    subst hc
    by_cases hph : ph = .minimization
    · subst hph
      cases hlen : cs.length with
      | zero =>
        obtain rfl := List.length_eq_zero_iff.1 hlen
        exact absurd rfl (h1 c)
      | succ n =>
        obtain ⟨b, phb, hb, himp⟩ := h2 n c (by rw [List.getElem?_append_right (by omega)]; simp [hlen])
        rw [List.getElem?_append_left (by omega)] at hb
        have hlast : cs.getLast? = some (b, phb) := by
          rw [List.getLast?_eq_getElem?, hlen]
          exact hb
        obtain ⟨before, c0, ph0, run, g1, g2, g3, g4⟩ := ih
          (fun c hc => h1 c (by rw [List.getElem?_append_left (by omega)]; exact hc))
          (fun i c hc => by
            have hi := (List.getElem?_eq_some_iff.1 hc).1
            obtain ⟨b, ph, k1, k2⟩ := h2 i c (by rw [List.getElem?_append_left hi]; exact hc)
            rw [List.getElem?_append_left (by omega)] at k1
            exact ⟨b, ph, k1, k2⟩) hlast
        refine ⟨before, c0, ph0, run ++ [(c, .minimization)], by rw [g1]; simp, g2, ?_, VLe.trans himp.1 g4⟩
        intro x hx
        rcases List.mem_append.1 hx with hx | hx
        · exact g3 x hx
        · simp only [List.mem_singleton] at hx
          rw [hx]
    · exact ⟨cs, c, ph, [], rfl, hph, by simp, VLe.refl _⟩

theorem externalCost_mono {os : List Objective} {c b : List Nat} (h : List.Forall₂ (· ≤ ·) c b) :
    List.Forall₂ (· ≤ ·) (List.zipWith externalCost os c) (List.zipWith externalCost os b) := by
  induction h generalizing os with
  | nil => simp
  | @cons x y c b hxy _ ih =>
    cases os with
    | nil => simp
    | cons o os =>
      refine List.Forall₂.cons ?_ ih
      cases o with
      | weighted => simp only [externalCost]; omega
      | unweighted off w =>
        simp only [externalCost]
        have := Nat.mul_le_mul_right w hxy
        omega
      | constant => exact Int.le_refl _

/-- C43: for each point that P-minimal or LowerBounding report, the minimization that led to it started from a candidate
that it weakly dominates; the candidates in between are candidates of this minimization. -/
theorem reported_dominates_start (alg : Alg) (halg : alg ≠ .biOptSat) (hs : Setting inst bcg opts env)
    (hl : LimitsFine env limits) (h0 : Started alg inst bcg opts s) (fuel : Nat) {pre post : List LogEvent}
    {p : NonDomPoint Assignment}
    (hlog : (alg.solve fuel limits env s).2.io.logger = some (pre ++ .nonDominated p :: post)) :
    ∃ before c0 ph run, candidates pre = before ++ (c0, ph) :: run ∧ ph ≠ .minimization ∧
      (∀ x ∈ run, x.2 = .minimization) ∧ List.Forall₂ (· ≤ ·) p.costs (List.zipWith externalCost inst.objs c0) := by
  have hobjs : s.k.objs = inst.objs := (fresh_ok hs.wf (started_fresh h0)).core.inv.objs
  have hempty : ∀ l, s.io.logger = some l → ReportsLast s.k.objs l := by
    intro l h
    rcases started_logger h0 with h' | h' <;> rw [h'] at h <;> cases h
    exact ReportsLast.nil
  obtain ⟨c, ph, h1, h2⟩ := reports_last (env := env) (limits := limits) alg halg hempty fuel _ hlog pre p post rfl
  have himp := (minimization_improves alg hs hl h0 fuel _ hlog).of_append
  obtain ⟨before, c0, ph0, run, g1, g2, g3, g4⟩ := minimization_start himp.first himp.next h1
  refine ⟨before, c0, ph0, run, g1, g2, g3, ?_⟩
  rw [h2, hobjs]
  exact externalCost_mono g4

/-! ## Examples -/

/-- An instance for which the reference oracle finds candidates that are not minimal. -/
def Example.mixed : Instance where
  clauses := [[Lit.pos 0, Lit.pos 1], [Lit.pos 1, Lit.pos 2], [Lit.pos 0, Lit.pos 3]]
  objs := [.weighted (-2) [(Lit.pos 0, 2), ((Lit.pos 1).not, 3)] 0 0, .unweighted 1 5 [(Lit.pos 2).not, Lit.pos 3] 1 0]
  vm := ⟨4, 3, 3⟩

theorem Example.mixed_setting : Setting Example.mixed defaultBlockingClause {} (refEnv true) where
  wf := ⟨by decide, by decide, by decide, by decide⟩
  fits := Example.fitsIsize_of_sum (by decide)
  unit := by
    intro off w lits i lb h
    simp [Example.mixed] at h
    omega
  enum := .noEnum _
  oracle := refEnv_correct true
  tight h := by simp [refEnv] at h

/-- Candidates and points in a log. -/
def Example.found (l : List LogEvent) : List (List Nat × Phase) × List (List Int) :=
  (candidates l, l.filterMap fun
    | .nonDominated p => some p.costs
    | _ => none)

/-- Both points of this run are found by a minimization with a step. -/
example : (Example.final Example.mixed .pMinimal {} Limits.none (refEnv true)).any fun r =>
    r.2.io.logger.map Example.found == some
      ([([2, 1], .outerLoop), ([2, 0], .minimization), ([0, 2], .outerLoop), ([0, 1], .minimization)],
        [[0, 1], [-2, 6]]) := by decide +kernel

end Scuttle
