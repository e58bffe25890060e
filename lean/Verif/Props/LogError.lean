import Verif.Proof.Loud
import Verif.Props.CutLog

/-!
# C70: errors of the logger are reported

A call in which a message of the logger fails, compared to the call of the same solver with a logger that does not fail. As
for C62, nothing is assumed about the instance, the answers of the SAT solver or the state in which `solve` is called.
-/

set_option linter.unusedSectionVars false

namespace Scuttle

open Spec

variable {P C D : Type} [UbEnc P] [UbEnc C] [TotDb D] [MergeEnc P C D]
variable {env : Env} {s : Slv P C}

/-- C70: without a limit on the number of points, a call that does not end with an error is the same, in its result and all
of the state with front, log and statistics, as with a logger that does not fail. -/
theorem logger_error_reported (alg : Alg) (n : Nat) {limits : Limits} (hp : limits.pps = none)
    (h : (alg.solve n limits env s).1 ≠ .error .error) :
    alg.solve n limits env s = alg.solve n limits { env with logOk := fun _ => true } s :=
  ((loud_solve alg n limits env s).resolve_left h).resolve_left fun h => h.1 hp

/-- C70, partial: with a limit on the number of points. A call that was not ended by it is the same as with a logger that
does not fail. -/
theorem logger_error_reported_partial (alg : Alg) (n : Nat) (limits : Limits)
    (h : (alg.solve n limits env s).1 ≠ .error .error) (hp : (alg.solve n limits env s).1 ≠ .error (.terminated .ppLimit))
    (hpanic : (alg.solve n limits env s).1 ≠ .error .panic) :
    alg.solve n limits env s = alg.solve n limits { env with logOk := fun _ => true } s :=
  ((loud_solve alg n limits env s).resolve_left h).resolve_left fun h => h.2.elim hp hpanic

/-- C70: the same for core boosting. -/
theorem boost_logger_error_reported (n : Nat) (o : CbOptions) (hs : s.io.lims.pps = none)
    (h : (coreBoost D n o env s).1 ≠ .error .error) :
    coreBoost D n o env s = coreBoost D n o { env with logOk := fun _ => true } s :=
  (((loud_coreBoost (m := n) o env s).resolve_left h).resolve_left fun h => h.1 hs).1

/-- C70: the driver with core boosting and `solve`. -/
theorem runAlg_logger_error_reported (alg : Alg) (n : Nat) (cb : Option CbOptions) {limits : Limits} (hp : limits.pps = none)
    (hs : s.io.lims.pps = none) (h : (runAlg D alg n cb limits env s).1 ≠ .error .error) :
    runAlg D alg n cb limits env s = runAlg D alg n cb limits { env with logOk := fun _ => true } s := by
  have hsolve : ∀ s' : Slv P C, (alg.solve n limits env s').1 = .error .error ∨
      alg.solve n limits env s' = alg.solve n limits { env with logOk := fun _ => true } s' := fun s' =>
    Classical.or_iff_not_imp_left.2 (logger_error_reported alg n hp)
  cases cb with
  | none =>
    unfold runAlg at h ⊢
    dsimp only at h ⊢
    rcases hsolve s with h1 | h1
    · rw [h1] at h
      exact absurd rfl h
    · rw [← h1]
  | some o =>
    have hb : (coreBoost D n o env s).1 = .error .error ∨
        coreBoost D n o env s = coreBoost D n o { env with logOk := fun _ => true } s :=
      Classical.or_iff_not_imp_left.2 (boost_logger_error_reported n o hs)
    unfold runAlg at h ⊢
    dsimp only at h ⊢
    rcases hb with hb | hb
    · rw [hb] at h
      exact absurd rfl h
    · rw [← hb]
      generalize coreBoost D n o env s = r at h ⊢
      cases hr : handleTermination r.1 with
      | error e => rfl
      | ok q =>
        rw [hr] at h
        dsimp only at h ⊢
        cases hq : q.2.getD false with
        | false => rfl
        | true =>
          rw [hq] at h
          simp only [if_true] at h ⊢
          rcases hsolve r.2 with h1 | h1
          · rw [h1] at h
            exact absurd rfl h
          · rw [← h1]

/-- C70: a program without a limit on the number of points that did not fail printed what it prints if no message fails. -/
theorem program_logger_error_reported (enc : PbCon → Nat → List Clause × Nat) (cli : Cli) (n : Nat) (parsed : Parsed)
    (hp : cli.limits.limits.pps = none) (h : subMain P C D enc cli n env parsed ≠ .failed) :
    subMain P C D enc cli n env parsed = subMain P C D enc cli n { env with logOk := fun _ => true } parsed := by
  have hi : ∀ inst r, solveInstance P C D cli n env inst r ≠ .failed →
      solveInstance P C D cli n env inst r = solveInstance P C D cli n { env with logOk := fun _ => true } inst r := by
    intro inst r h
    unfold solveInstance at h ⊢
    split
    · rfl
    · rename_i hc
      rw [if_neg hc] at h
      cases hn : (cli.alg.new inst defaultBlockingClause cli.opts : Option (Slv P C)) with
      | none => rfl
      | some s =>
        rw [hn] at h
        dsimp only at h ⊢
        have hs : s.attachLogger.io.lims.pps = none := by
          change s.io.lims.pps = none
          rw [new_lims cli.alg hn]
          rfl
        rw [← runAlg_logger_error_reported cli.alg n cli.cb.parse.1 hp hs]
        intro he
        rw [he] at h
        exact h rfl
  unfold subMain at h ⊢
  dsimp only at h ⊢
  cases hd : toClausal env.debug enc parsed with
  | none => rfl
  | some inst =>
    rw [hd] at h
    dsimp only at h ⊢
    split
    · rename_i hr
      rw [if_pos hr] at h
      cases hx : reindexing inst with
      | none => rfl
      | some q =>
        rw [hx] at h
        exact hi _ _ h
    · rename_i hr
      rw [if_neg hr] at h
      exact hi _ _ h

/-! ### Counterexample and examples -/

/-- How a run of lower-bounding with enumeration ends, the costs of the points with their numbers of solutions, and the
length of the log. -/
def Example.ending (limits : Limits) (env : Env) : Option (Option Stop × List (List Int × Nat) × Nat) :=
  (Example.final Example.twice .lowerBounding { enumeration := .solutions none } limits env).map fun r =>
    (match r.1 with | .ok () => none | .error e => some e, r.2.front.map fun p => (p.costs, p.sols.length),
      (r.2.io.logger.getD []).length)

/-- The hypotheses are met by a call in which the logger would fail after the limit on the solutions was reached, and by
one that ends although the logger fails at a time at which there is no message. -/
example : Example.ending { sols := some 1 } (Example.stopAt 1000 50) =
      some (some (.terminated .solsLimit), [([0, 6], 1)], 25) ∧
    Example.ending Limits.none (Example.stopAt 1000 44) = some (none, [([0, 6], 2), ([3, 1], 2)], 81) ∧
    Example.ending { pps := some 1 } (Example.stopAt 1000 45) = some (some .error, [], 28) := by
  refine ⟨by decide +kernel, by decide +kernel, by decide +kernel⟩

/-- C70: a limit on the number of points hides an error of the logger. The message about the first solution fails; the call
ends with the reason of the limit, although the log lacks messages and the point a solution. -/
theorem logger_error_lost : ∃ (env : Env) (s : Slv (RefEnc 1) (RefEnc 0)),
    (Alg.lowerBounding.solve 50 { pps := some 1 } env s).1 = .error (.terminated .ppLimit) ∧
    (Alg.lowerBounding.solve 50 { pps := some 1 } { env with logOk := fun _ => true } s).1 = .error (.terminated .ppLimit) ∧
    (Alg.lowerBounding.solve 50 { pps := some 1 } env s).2.io.logger ≠
      (Alg.lowerBounding.solve 50 { pps := some 1 } { env with logOk := fun _ => true } s).2.io.logger ∧
    (Alg.lowerBounding.solve 50 { pps := some 1 } env s).2.front ≠
      (Alg.lowerBounding.solve 50 { pps := some 1 } { env with logOk := fun _ => true } s).2.front := by
  have hc : ((Alg.lowerBounding.new (P := RefEnc 1) (C := RefEnc 0) Example.twice defaultBlockingClause
      { enumeration := .solutions none }).any fun s =>
      let r := Alg.lowerBounding.solve 50 { pps := some 1 } (Example.stopAt 1000 35) s.attachLogger
      let r' := Alg.lowerBounding.solve 50 { pps := some 1 } { Example.stopAt 1000 35 with logOk := fun _ => true } s.attachLogger
      (match r.1 with | .error (.terminated .ppLimit) => true | _ => false) &&
      (match r'.1 with | .error (.terminated .ppLimit) => true | _ => false) &&
      decide (r.2.io.logger ≠ r'.2.io.logger) && decide (r.2.front ≠ r'.2.front)) = true := by decide +kernel
  rw [Option.any_eq_true] at hc
  obtain ⟨s, -, hc⟩ := hc
  dsimp only at hc
  rw [Bool.and_eq_true, Bool.and_eq_true, Bool.and_eq_true] at hc
  obtain ⟨⟨⟨h1, h2⟩, h3⟩, h4⟩ := hc
  refine ⟨Example.stopAt 1000 35, s.attachLogger, ?_, ?_, of_decide_eq_true h3, of_decide_eq_true h4⟩
  · split at h1
    · assumption
    · cases h1
  · split at h2
    · assumption
    · cases h2

/-- The program: it prints the front if the logger fails at a time at which there is no message, and else it fails. -/
def Example.prints (k : Nat) : Option (List Termination × List (List Int)) :=
  match subMain (RefTot.RefTree 1) (RefTot.RefTree 0) RefTot refPbEnc { alg := .lowerBounding } 50
    { Example.stopAt 1000 k with debug := false } Example.parsed with
  | .printed w f => some (w, f.map (·.costs))
  | _ => none

example : Example.prints 30 = some ([], [[1, 6], [2, 3]]) ∧ Example.prints 29 = none :=
  ⟨by decide +kernel, by decide +kernel⟩

end Scuttle
