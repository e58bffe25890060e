import Verif.Proof.LogTrue
import Verif.Props.Fence

/-!
# C63: what the messages about bounds say is true
-/

set_option linter.unusedSectionVars false

namespace Scuttle

open Spec

variable {P C D : Type} [UbEnc P] [UbEnc C] [TotDb D] [MergeEnc P C D]
variable [LawfulUbEnc P] [LawfulUbEnc C] [LawfulTotDb D] [LawfulMergeEnc P C D]
variable {env : Env} {s : Slv P C} {inst : Instance} {opts : KernelOptions} {bcg : Assignment → Clause} {limits : Limits}

/-! ## The fence -/

theorem Spec.FencesTrue.lbOnly {os : List Objective} (h : LbOnly inst.objs os) {b0 : List Nat} {l : List LogEvent}
    (hf : FencesTrue (inst.withObjs os) b0 l) : FencesTrue inst b0 l := by
  intro pre b' post heq b hb t ht hle
  have hp := h.problem
  have := hf pre b' post heq b hb t (by rw [hp]; exact ht) fun i o' x ho' hx => by
    obtain ⟨o, ho, he⟩ := h.get ho'
    have h1 := hle i o x ho hx
    rw [lb_externalCost he, lb_objValue he]
    exact h1
  rw [hp] at this
  exact this

/-- C63: in the log of every run of LowerBounding on a fresh solver, however it ends, whenever the fence is updated, each
feasible assignment within the bounds that were valid until then is weakly dominated by a point reported before. So if
a run is cut short, the front that was found covers everything below all fences in the log but the last. -/
theorem fence_covered (hs : Setting inst bcg opts env) (hl : LimitsFine env limits)
    (h0 : Started .lowerBounding inst bcg opts s) (fuel : Nat) {l : List LogEvent}
    (hlog : (Alg.solve .lowerBounding fuel limits env s).2.io.logger = some l) :
    FencesTrue inst (List.replicate inst.objs.length 0) l := by
  have hf := fresh_ok hs.wf (started_fresh h0)
  rw [← hf.offs]
  exact prepared_covered hs hl (started_prepared hs.wf h0) fuel
    (fun l h => by rcases started_logger h0 with h' | h' <;> rw [h'] at h <;> cases h; rfl) hlog

/-- C63: the same after core boosting, with the fence starting at the offsets of the encodings. -/
theorem fence_covered_boosted {cb : CbOptions} {fuel : Nat} (hs : Setting inst bcg opts env) (hl : LimitsFine env limits)
    (nd : NoDupCores env) (hn : NoDupLits inst) (h0 : Started .lowerBounding inst bcg opts s)
    (hb : (coreBoost D fuel cb env s).1 = .ok true) (fuel' : Nat) {l : List LogEvent}
    (hlog : (Alg.solve .lowerBounding fuel' limits env (coreBoost D fuel cb env s).2).2.io.logger = some l) :
    FencesTrue inst ((coreBoost D fuel cb env s).2.encs.map ObjEnc.offset) l := by
  obtain ⟨h1, h2, -⟩ := boosted_of_ok hs nd hn h0 hb
  have hp := h1.prepared (fresh_ok hs.wf (started_fresh h0)) h2 .lowerBounding (by simp)
  have hnf := coreBoost_fences (D := D) (env := env) h0 fuel cb
  exact (prepared_covered (h1.rel.setting hs) hl hp fuel' hnf hlog).lbOnly h1.rel

/-! ## The ideal point -/

/-- C63: however core boosting of a fresh solver ends, each ideal point in the log is the ideal point: its entries are
lower bounds for the values of the objectives over all feasible assignments, and attained if there is one. -/
theorem ideal_true {alg : Alg} {cb : CbOptions} (hs : Setting inst bcg opts env) (nd : NoDupCores env)
    (hn : NoDupLits inst) (h0 : Started alg inst bcg opts s) (fuel : Nat) {l : List LogEvent}
    (hlog : (coreBoost D fuel cb env s).2.io.logger = some l) : ∀ p ∈ ideals l, IsIdeal inst p := by
  have h := wp_idealBoost (D := D) (fuel := fuel) (cb := cb) hs nd hn (fresh_fine hs.wf (started_fresh h0)) (f0 := s.front)
    (n0 := s.io.stats.nSolveCalls) (lg := s.io.logger.isSome) (fs := []) ⟨rfl, rfl, fun l h => by
      rcases started_logger h0 with h' | h' <;> rw [h'] at h <;> cases h
      exact ⟨.zero .nil, rfl, by simp [ideals], by simp⟩, rfl, False.elim⟩
  unfold wp at h
  cases hr : coreBoost D fuel cb env s with
  | mk r s1 =>
    rw [hr] at h hlog
    cases r with
    | ok a =>
      obtain ⟨is, h1, h2⟩ := h
      rw [(h2.log l hlog).2.2.1 is rfl]
      exact h1
    | error e =>
      obtain ⟨d, is, h1, h2⟩ := h
      rw [(h2.log l hlog).2.2.1 is rfl]
      exact h1

/-! ## Examples -/

/-- Fences, points and ideal points in a log, in this order. -/
def Example.boundMsgs : List LogEvent → List (String × List Int)
  | [] => []
  | .fence b :: es => ("fence", b.map Int.ofNat) :: Example.boundMsgs es
  | .nonDominated p :: es => ("point", p.costs) :: Example.boundMsgs es
  | .ideal b :: es => ("ideal", b.map Int.ofNat) :: Example.boundMsgs es
  | _ :: es => Example.boundMsgs es

/-- A run that is cut short after several updates of the fence; the second objective has weight 5 and offset 1, so the
fence `[1, 1]` stands for the values `[-1, 6]`. -/
example : (Example.final Example.mixed .lowerBounding {} { oracleCalls := some 12 } (refEnv true)).any fun r =>
    Example.endedBy' .oracleCallsLimit r.1 && r.2.io.logger.map Example.boundMsgs ==
      some [("fence", [1, 1]), ("point", [-2, 6]), ("fence", [2, 2]), ("point", [0, 1]), ("fence", [3, 2])] := by
  decide +kernel

example : Setting Example.mixed defaultBlockingClause {} (refEnv true) ∧
    LimitsFine (refEnv true) { oracleCalls := some 12 } :=
  ⟨Example.mixed_setting, fun _ => ⟨by simp, by simp, by simp, by simp⟩⟩

/-- Messages about bounds of core boosting and of the run that follows, and the offsets in between. -/
def Example.boostMsgs (inst : Instance) : Option (Bool × List Nat × Option (List (String × List Int))) :=
  (Alg.lowerBounding.new (P := RefTot.RefTree 1) (C := RefTot.RefTree 0) inst defaultBlockingClause {}).map fun s =>
    let r := coreBoost RefTot 50 {} (refEnv true) s.attachLogger
    (match r.1 with | .ok b => b | .error _ => false, r.2.encs.map ObjEnc.offset,
      (Alg.lowerBounding.solve 50 Limits.none (refEnv true) r.2).2.io.logger.map Example.boundMsgs)

example : (Example.boostMsgs Example.inst).any fun r => r.1 && r.2.1 == [2, 0] && r.2.2 == some [("ideal", [2, 0]),
    ("fence", [3, 1]), ("point", [0, 6]), ("fence", [4, 2]), ("fence", [5, 2]), ("point", [3, 1])] := by decide +kernel

example : (∀ opts, Setting Example.inst defaultBlockingClause opts (refEnv true)) ∧ NoDupCores (refEnv true) ∧
    NoDupLits Example.inst := ⟨Example.setting, refEnv_noDupCores true, Example.noDupLits⟩

end Scuttle
