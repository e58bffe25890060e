import Verif.Proof.Resume
import Verif.Props.Solve

/-!
# C14, C15: several calls to `solve` on one solver
-/

namespace Scuttle

open Spec

variable {P C : Type} [UbEnc P] [UbEnc C] [LawfulUbEnc P] [LawfulUbEnc C]
variable {env : Env} {s : Slv P C} {inst : Instance} {opts : KernelOptions} {bcg : Assignment → Clause}

/-- C14: without enumeration, after any sequence of calls with any limits on a P-minimal or LowerBounding solver, each
point of the front is non-dominated, no point occurs twice, solutions attain the costs, each point has exactly one
solution, and no call has panicked. -/
theorem repeated_solve_sound (alg : Alg) (halg : alg ≠ .biOptSat) (hs : Setting inst bcg opts env)
    (hno : opts.enumeration = .noEnum) (h0 : Started alg inst bcg opts s) (calls : List Call) (hc : CallsFine env calls) :
    SoundFront inst (alg.calls env calls s).2.front ∧ SolutionsOK inst (alg.calls env calls s).2.front ∧
    (∀ p ∈ (alg.calls env calls s).2.front, p.sols.length = 1) ∧
    ∀ r ∈ (alg.calls env calls s).1, r ≠ .error .panic := by
  obtain ⟨h1, h2⟩ := (fresh_ok hs.wf (started_fresh h0)).between.calls halg hs hno calls hc
  obtain ⟨A, cs, hcore, -⟩ := h1.core
  refine ⟨hcore.front.soundFront hs.unit, hcore.front.solutionsOK, fun p hp => ?_, fun r hr => (h2 r hr).1⟩
  obtain ⟨c, -, hpc⟩ := hcore.front.mem hp
  have h : CountOK opts.enumeration p.sols.length := hpc.count
  rw [hno] at h
  exact h

/-- C15, the part that holds: without enumeration, if all calls on a P-minimal or LowerBounding solver ended with `Done`,
the limit on points or the limit on solutions, and the last one returned `Done`, then the front is exact. Missing: the
other ways to end, enumeration and BiOptSat; the counterexamples below show that the claim is false for them. -/
theorem resume_exact_front_partial (alg : Alg) (halg : alg ≠ .biOptSat) (hs : Setting inst bcg opts env)
    (hno : opts.enumeration = .noEnum) (h0 : Started alg inst bcg opts s) (calls : List Call) (hc : CallsFine env calls)
    (hend : ∀ r ∈ (alg.calls env calls s).1,
      r = .ok () ∨ r = .error (.terminated .ppLimit) ∨ r = .error (.terminated .solsLimit))
    {limits : Limits} (hl : LimitsFine env limits) (fuel : Nat)
    (hdone : (alg.solve fuel limits env (alg.calls env calls s).2).1 = .ok ()) :
    ExactFront inst (alg.solve fuel limits env (alg.calls env calls s).2).2.front := by
  obtain ⟨h1, -⟩ := (fresh_ok hs.wf (started_fresh h0)).between.calls halg hs hno calls hc
  obtain ⟨A, cs, hcore, hcov, hno'⟩ := (h1.solve halg hs hno hl fuel).done hdone
  have hcov := hcov ⟨trivial, hend⟩
  have hsf := hcore.front.soundFront hs.unit
  refine ⟨fun v => ⟨?_, ?_⟩, hsf.once⟩
  · intro hv
    obtain ⟨p, hp, rfl⟩ := List.mem_map.1 hv
    exact hsf.sound p hp
  · rintro ⟨t, ht, rfl⟩
    have ht' := (paretoOptimal_iff (opts := opts) (bcg := bcg) hs.unit t).1 ht
    have hm := (hcov t ht').resolve_left (hno' t ht'.1)
    obtain ⟨p, hp, hpc⟩ := forall₂_mem_right hcore.front.points hm
    refine List.mem_map.2 ⟨p, hp, ?_⟩
    obtain ⟨t', g1, g2, g3⟩ := hpc.costs
    rw [g3, ← costs_eq, costs_eq_iff (opts := opts) (bcg := bcg) hs.unit, g2]

/-! ## Examples -/

/-- Checks the results of two calls and the costs in the front after the second. -/
def Example.twoCalls (alg : Alg) (opts : KernelOptions) (l1 l2 : Limits) (r1 : Except Stop Unit → Bool)
    (costs : List (List Int)) : Bool :=
  (alg.new (P := RefEnc 1) (C := RefEnc 0) Example.inst defaultBlockingClause opts).any fun s =>
    r1 (alg.solve 50 l1 (refEnv true) s).1 &&
    Example.isDone costs (some ((alg.solve 50 l2 (refEnv true) (alg.solve 50 l1 (refEnv true) s).2).1,
      (alg.solve 50 l2 (refEnv true) (alg.solve 50 l1 (refEnv true) s).2).2.front))

/-- Result of a call that was terminated for the given reason. -/
def Example.endedBy (t : Termination) : Except Stop Unit → Bool
  | .error (.terminated t') => t' == t
  | _ => false

/-- The hypotheses of the two theorems are met: a call that hits the limit on points, then one that is `Done`. -/
example : Example.twoCalls .pMinimal {} { pps := some 1 } Limits.none (Example.endedBy .ppLimit) [[3, 1], [0, 6]] := by
  decide +kernel
example : Example.twoCalls .lowerBounding {} { sols := some 1 } Limits.none (Example.endedBy .solsLimit) [[0, 6], [3, 1]] := by
  decide +kernel

theorem Example.isDone_iff {r : Except Stop Unit} {f : ParetoFront Assignment} {c : List (List Int)}
    (h : Example.isDone c (some (r, f)) = true) : r = .ok () ∧ f.map NonDomPoint.costs = c := by
  cases r with
  | error e => simp [Example.isDone] at h
  | ok u => exact ⟨rfl, by simpa [Example.isDone] using h⟩

theorem Example.endedBy_iff {t : Termination} {r : Except Stop Unit} (h : Example.endedBy t r = true) :
    r = .error (.terminated t) := by
  cases r with
  | ok u => simp [Example.endedBy] at h
  | error e => cases e <;> simp_all [Example.endedBy]

/-- The front of the example. -/
theorem Example.nonDominated (v : List Int) : (problem Example.inst).NonDominated v ↔ v = [3, 1] ∨ v = [0, 6] := by
  have h : (Alg.new (P := RefEnc 1) (C := RefEnc 0) .pMinimal Example.inst defaultBlockingClause {}).any (fun s =>
      Example.isDone [[3, 1], [0, 6]] (some ((Alg.pMinimal.solve 50 Limits.none (refEnv true) s).1,
        (Alg.pMinimal.solve 50 Limits.none (refEnv true) s).2.front))) = true := by decide +kernel
  rw [Option.any_eq_true] at h
  obtain ⟨s, hs, h⟩ := h
  obtain ⟨h1, h2⟩ := Example.isDone_iff h
  have h3 := pminimal_exact_front (Example.setting {})
    (fun _ => ⟨by simp [Limits.none], by simp [Limits.none], by simp [Limits.none], by simp [Limits.none]⟩)
    ⟨s, hs, .inl rfl⟩ 50 h1
  rw [← h3.exact v, h2]
  simp

/-- What goes wrong when a call to `solve` that ended with reason `t` is followed by one that returns `Done`. -/
theorem Example.twoCalls_spec {alg : Alg} {opts : KernelOptions} {l1 l2 : Limits} {t : Termination} {costs : List (List Int)}
    (h : Example.twoCalls alg opts l1 l2 (Example.endedBy t) costs = true) :
    ∃ s : Example.Solver, Started alg Example.inst defaultBlockingClause opts s ∧
      (alg.solve 50 l1 (refEnv true) s).1 = .error (.terminated t) ∧
      (alg.solve 50 l2 (refEnv true) (alg.solve 50 l1 (refEnv true) s).2).1 = .ok () ∧
      (alg.solve 50 l2 (refEnv true) (alg.solve 50 l1 (refEnv true) s).2).2.front.map NonDomPoint.costs = costs := by
  unfold Example.twoCalls at h
  rw [Option.any_eq_true] at h
  obtain ⟨s, hs, h⟩ := h
  rw [Bool.and_eq_true] at h
  obtain ⟨h1, h2⟩ := h
  obtain ⟨h2, h3⟩ := Example.isDone_iff h2
  exact ⟨s, ⟨s, hs, .inl rfl⟩, Example.endedBy_iff h1, h2, h3⟩

/-- C15 is violated by P-minimal without enumeration if the first call ends with the limit on oracle calls: the candidate
that was being improved is blocked and never reported, a point of the front is missing although `Done` is returned. -/
theorem resume_loses_point_counterexample : ∃ s : Example.Solver,
    Started .pMinimal Example.inst defaultBlockingClause {} s ∧
    let s1 := Alg.pMinimal.solve 50 { oracleCalls := some 2 } (refEnv true) s
    let s2 := Alg.pMinimal.solve 50 Limits.none (refEnv true) s1.2
    s1.1 = .error (.terminated .oracleCallsLimit) ∧ s2.1 = .ok () ∧
    ∃ v, (problem Example.inst).NonDominated v ∧ v ∉ s2.2.front.map NonDomPoint.costs := by
  obtain ⟨s, h1, h2, h3, h4⟩ := Example.twoCalls_spec (alg := .pMinimal) (opts := {}) (l1 := { oracleCalls := some 2 })
    (l2 := Limits.none) (t := .oracleCallsLimit) (costs := [[0, 6]]) (by decide +kernel)
  exact ⟨s, h1, h2, h3, [3, 1], (Example.nonDominated _).2 (by simp), by rw [h4]; simp⟩

/-- C15 is violated by BiOptSat: after the limit on points, the next call reports the last point again. -/
theorem resume_bioptsat_duplicate_counterexample : ∃ s : Example.Solver,
    Started .biOptSat Example.inst defaultBlockingClause {} s ∧
    let s1 := Alg.biOptSat.solve 50 { pps := some 1 } (refEnv true) s
    let s2 := Alg.biOptSat.solve 50 Limits.none (refEnv true) s1.2
    s1.1 = .error (.terminated .ppLimit) ∧ s2.1 = .ok () ∧ ¬ (s2.2.front.map NonDomPoint.costs).Nodup := by
  obtain ⟨s, h1, h2, h3, h4⟩ := Example.twoCalls_spec (alg := .biOptSat) (opts := {}) (l1 := { pps := some 1 })
    (l2 := Limits.none) (t := .ppLimit) (costs := [[0, 6], [0, 6], [3, 1]]) (by decide +kernel)
  exact ⟨s, h1, h2, h3, by rw [h4]; decide⟩

/-- C15 is violated with enumeration of solutions: after the limit on points, the next call of BiOptSat reports dominated
points, because the solutions of the reported point are blocked but not the solutions that it dominates. -/
theorem resume_dominated_counterexample : ∃ s : Example.Solver,
    Started .biOptSat Example.inst defaultBlockingClause { enumeration := .solutions none } s ∧
    let s1 := Alg.biOptSat.solve 50 { pps := some 1 } (refEnv true) s
    let s2 := Alg.biOptSat.solve 50 Limits.none (refEnv true) s1.2
    s1.1 = .error (.terminated .ppLimit) ∧ s2.1 = .ok () ∧
    ∃ p ∈ s2.2.front, ¬ (problem Example.inst).NonDominated p.costs := by
  obtain ⟨s, h1, h2, h3, h4⟩ := Example.twoCalls_spec (alg := .biOptSat) (opts := { enumeration := .solutions none })
    (l1 := { pps := some 1 }) (l2 := Limits.none) (t := .ppLimit) (costs := [[0, 6], [0, 11], [1, 6], [3, 1]])
    (by decide +kernel)
  refine ⟨s, h1, h2, h3, ?_⟩
  have : ([0, 11] : List Int) ∈ (Alg.biOptSat.solve 50 Limits.none (refEnv true)
      (Alg.biOptSat.solve 50 { pps := some 1 } (refEnv true) s).2).2.front.map NonDomPoint.costs := by rw [h4]; simp
  obtain ⟨p, hp, hpc⟩ := List.mem_map.1 this
  exact ⟨p, hp, by rw [hpc, Example.nonDominated]; decide⟩

/-- C15 is violated with enumeration by P-minimal: after the limit on solutions, the next call reports the point again. -/
theorem resume_enumeration_duplicate_counterexample : ∃ s : Example.Solver,
    Started .pMinimal Example.inst defaultBlockingClause { enumeration := .solutions (some 2) } s ∧
    let s1 := Alg.pMinimal.solve 50 { sols := some 1 } (refEnv true) s
    let s2 := Alg.pMinimal.solve 50 Limits.none (refEnv true) s1.2
    s1.1 = .error (.terminated .solsLimit) ∧ s2.1 = .ok () ∧ ¬ (s2.2.front.map NonDomPoint.costs).Nodup := by
  obtain ⟨s, h1, h2, h3, h4⟩ := Example.twoCalls_spec (alg := .pMinimal) (opts := { enumeration := .solutions (some 2) })
    (l1 := { sols := some 1 }) (l2 := Limits.none) (t := .solsLimit) (costs := [[3, 1], [3, 1], [0, 6]]) (by decide +kernel)
  exact ⟨s, h1, h2, h3, by rw [h4]; decide⟩

end Scuttle
