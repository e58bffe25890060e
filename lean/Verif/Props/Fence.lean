import Verif.Proof.FenceLog
import Verif.Props.Driver
import Verif.Props.Log

/-!
# C40: the fence of LowerBounding
-/

set_option linter.unusedSectionVars false

namespace Scuttle

open Spec

variable {P C : Type} [UbEnc P] [UbEnc C]
variable {env : Env} {s : Slv P C} {inst : Instance} {opts : KernelOptions} {bcg : Assignment → Clause} {limits : Limits}

/-- C40: in every call of LowerBounding, however it ends and for every oracle, correct or not, the message after each
oracle call of the main loop that found no solution is an update of the fence, unless the call to `solve` ends. -/
theorem unsat_raises_fence {l0 : List LogEvent} (hl : s.io.logger = some l0) (fuel : Nat) :
    ∃ es, (Alg.solve .lowerBounding fuel limits env s).2.io.logger = some (l0 ++ es) ∧ UnsatRaises es := by
  obtain ⟨es, h1, -⟩ := log_agrees (env := env) (limits := limits) .lowerBounding fuel hl
  exact ⟨es, h1, (lb_lbSolve fuel limits s hl _ h1).unsatRaises⟩

variable [LawfulUbEnc P] [LawfulUbEnc C]

theorem FreshOK.offs (hf : FreshOK inst bcg opts s) : encOffs s = List.replicate inst.objs.length 0 := by
  unfold encOffs
  refine List.eq_replicate_iff.2 ⟨by rw [List.length_map]; exact hf.core.inv.len, fun b hb => ?_⟩
  obtain ⟨e, he, rfl⟩ := List.mem_map.1 hb
  obtain ⟨i, hi⟩ := List.getElem?_of_mem he
  exact hf.off i e hi

/-- C40: in the log of every run of LowerBounding on a fresh solver, however it ends, the bounds of the fence start at
zero, with each update of the fence no bound decreases and at least one increases, and no bound is raised beyond the next
value of its objective. -/
theorem fence_rises (hs : Setting inst bcg opts env) (hl : LimitsFine env limits)
    (h0 : Started .lowerBounding inst bcg opts s) (fuel : Nat) {l : List LogEvent}
    (hlog : (Alg.solve .lowerBounding fuel limits env s).2.io.logger = some l) :
    List.IsChain (fun b b' => Raises b b' ∧ NoSkip inst.objs b b') (List.replicate inst.objs.length 0 :: fences l) := by
  have hf := fresh_ok hs.wf (started_fresh h0)
  have h1 := (prepared_fences hs hl (started_prepared hs.wf h0) fuel).1 True _ (fun _ => hf.vals)
    (flog_start hf.fence fun l h => by rcases started_logger h0 with h' | h' <;> rw [h'] at h <;> cases h; rfl) l hlog
  rw [hf.offs] at h1
  exact h1.imp fun b b' h => ⟨h.1, h.2 trivial⟩

/-- C40: the same for several calls without enumeration, with loggers attached and detached in between, if writing to
loggers does not fail: in each log, with each update of the fence no bound decreases and at least one increases, and no
bound is raised beyond the next value of its objective, across the calls. -/
theorem fence_rises_calls (hs : Setting inst bcg opts env) (hno : opts.enumeration = .noEnum) (hlf : ¬ LogFail env)
    (h0 : Started .lowerBounding inst bcg opts s) (calls : List Call) (hc : CallsFine env calls) {l : List LogEvent}
    (hlog : (Alg.calls .lowerBounding env calls s).2.io.logger = some l) :
    List.IsChain (fun b b' => Raises b b' ∧ NoSkip inst.objs b b') (fences l) := by
  have hf := fresh_ok hs.wf (started_fresh h0)
  obtain ⟨b0, h1⟩ := hf.between.fences_calls hs hno hlf calls hc hf.vals
    ⟨_, flog_start hf.fence fun l h => by rcases started_logger h0 with h' | h' <;> rw [h'] at h <;> cases h; rfl⟩
  exact (h1 l hlog).1.tail.imp fun b b' h => ⟨h.1, h.2 trivial⟩

/-- Core boosting logs neither fences nor candidates. -/
theorem coreBoost_noCost {D : Type} [TotDb D] [MergeEnc P C D] {alg : Alg} (h0 : Started alg inst bcg opts s) (fuel : Nat)
    (cb : CbOptions) : ∀ l, (coreBoost D fuel cb env s).2.io.logger = some l → ∀ e ∈ l, e.NoCost := by
  have hcb := cbk_coreBoost (D := D) (env := env) fuel cb (f0 := s.front) (n0 := s.io.stats.nSolveCalls)
    (lg := s.io.logger.isSome) (nl := False) (fs := []) 0 s ⟨rfl, rfl, fun l h => by
      rcases started_logger h0 with h' | h' <;> rw [h'] at h <;> cases h
      exact ⟨.zero .nil, rfl, by simp, by simp⟩, rfl, False.elim⟩
  unfold wp at hcb
  cases hr : coreBoost D fuel cb env s with
  | mk r s1 =>
    rw [hr] at hcb
    cases r with
    | ok => exact fun l h => (hcb.log l h).2.2.2
    | error => obtain ⟨d, hcb⟩ := hcb; exact fun l h => (hcb.log l h).2.2.2

/-- Core boosting does not log fences. -/
theorem coreBoost_fences {D : Type} [TotDb D] [MergeEnc P C D] {alg : Alg} (h0 : Started alg inst bcg opts s) (fuel : Nat)
    (cb : CbOptions) : ∀ l, (coreBoost D fuel cb env s).2.io.logger = some l → fences l = [] := by
  have hcb := cbk_coreBoost (D := D) (env := env) fuel cb (f0 := s.front) (n0 := s.io.stats.nSolveCalls)
    (lg := s.io.logger.isSome) (nl := False) (fs := []) 0 s ⟨rfl, rfl, fun l h => by
      rcases started_logger h0 with h' | h' <;> rw [h'] at h <;> cases h
      exact ⟨.zero .nil, rfl, by simp, by simp⟩, rfl, False.elim⟩
  unfold wp at hcb
  cases hr : coreBoost D fuel cb env s with
  | mk r s1 =>
    rw [hr] at hcb
    cases r with
    | ok => exact fun l h => (hcb.log l h).2.1
    | error => obtain ⟨d, hcb⟩ := hcb; exact fun l h => (hcb.log l h).2.1

/-- C40: after core boosting, too, no bound decreases and at least one increases with each update of the fence. -/
theorem fence_rises_boosted {D : Type} [TotDb D] [LawfulTotDb D] [MergeEnc P C D] [LawfulMergeEnc P C D]
    {cb : CbOptions} {fuel : Nat} (hs : Setting inst bcg opts env) (hl : LimitsFine env limits)
    (nd : NoDupCores env) (hn : NoDupLits inst) (h0 : Started .lowerBounding inst bcg opts s)
    (hb : (coreBoost D fuel cb env s).1 = .ok true) (fuel' : Nat) {l : List LogEvent}
    (hlog : (Alg.solve .lowerBounding fuel' limits env (coreBoost D fuel cb env s).2).2.io.logger = some l) :
    List.IsChain Raises (fences l) := by
  obtain ⟨h1, h2, -⟩ := boosted_of_ok hs nd hn h0 hb
  have hp := h1.prepared (fresh_ok hs.wf (started_fresh h0)) h2 .lowerBounding (by simp)
  have hnf := coreBoost_fences (D := D) (env := env) h0 fuel cb
  have h3 := (prepared_fences (h1.rel.setting hs) hl hp fuel').1 False _ (fun h => h.elim) (flog_start hp.fence hnf) l hlog
  exact h3.tail.imp fun b b' h => h.1

/-! ## Examples -/

/-- A run with several updates of the fence. -/
example : (Example.final Example.mixed .lowerBounding {} Limits.none (refEnv true)).any fun r =>
    r.2.io.logger.map fences == some [[1, 1], [2, 2], [3, 2], [4, 2], [5, 2]] := by decide +kernel

example : Setting Example.mixed defaultBlockingClause {} (refEnv true) ∧ LimitsFine (refEnv true) ⟨some 5, none, some 7, some 100⟩ ∧
    ¬ LogFail (refEnv true) :=
  ⟨Example.mixed_setting, Example.limitsFine _, fun ⟨_, h⟩ => by cases h⟩

/-- The fences after two calls with the same logger, and the result of the first. -/
def Example.twoCallsFences (limits : Limits) : Option (Bool × Option (List (List Nat))) :=
  (Alg.new (P := RefEnc 1) (C := RefEnc 0) .lowerBounding Example.mixed defaultBlockingClause {}).map fun s =>
    let r := Alg.calls .lowerBounding (refEnv true) [.attachLogger, .solve 50 limits, .solve 50 Limits.none] s
    (r.1.head?.any (Example.endedBy .ppLimit), r.2.io.logger.map fences)

/-- Two calls, the first of which stops after a point; the fence is kept. -/
example : Example.twoCallsFences { pps := some 1 } =
    some (true, some [[1, 1], [2, 2], [3, 2], [4, 2], [5, 2]]) := by decide +kernel

/-- Oracle calls and fences with the number of routines that are open. -/
def Example.mainCalls : Nat → List LogEvent → List String
  | _, [] => []
  | d, .routineStart _ :: es => Example.mainCalls (d + 1) es
  | d, .routineEnd :: es => Example.mainCalls (d - 1) es
  | 1, .oracleCall .unsat :: es => "unsat" :: Example.mainCalls 1 es
  | 1, .oracleCall .sat :: es => "sat" :: Example.mainCalls 1 es
  | 1, .fence _ :: es => "fence" :: Example.mainCalls 1 es
  | d, _ :: es => Example.mainCalls d es

example : (Example.final Example.mixed .lowerBounding {} Limits.none (refEnv true)).any fun r =>
    r.2.io.logger.map (Example.mainCalls 0) == some
      ["unsat", "fence", "sat", "unsat", "fence", "sat", "unsat", "fence", "unsat", "fence", "unsat", "fence", "unsat"] := by decide +kernel

end Scuttle
