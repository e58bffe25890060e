import Verif.Props.CutShort

/-!
# C69: the log of a run that is cut short

The messages that the logger receives in a run with limits or interrupts, compared to those in the run of the same solver
without any. As for C62, nothing is assumed about the instance, the answers of the SAT solver or the state in which `solve`
is called.
-/

set_option linter.unusedSectionVars false

namespace Scuttle

open Spec

variable {P C D : Type} [UbEnc P] [UbEnc C] [TotDb D] [MergeEnc P C D]
variable {env calm : Env} {s : Slv P C} {n₁ n₂ : Nat}

theorem Outcome.log {α : Type} {L : Prop} {x y : Except Stop α × Slv P C} (h : Outcome False L x y) {b : α}
    (hy : y.1 = .ok b) : LogBefore L x.2.io.logger y.2.io.logger := by
  unfold Outcome at h
  split at h
  · rw [(h.2.time.resolve_left id).2]; exact (logGrows_refl _).before
  · exact (h b hy).2.resolve_left id

theorem lg_solve (alg : Alg) (n : Nat) : LG (P := P) (C := C) (alg.solve n Limits.none) := by
  intro env s
  have h : alg.solve n Limits.none env s = (startSolving Limits.none >>= fun _ => (alg.main n : M P C Unit)) env s := by
    cases alg <;> rfl
  rw [h]
  exact lg_bind (lg_of_eq fun _ _ => rfl) (fun _ => (rel_main (T := True) alg (Nat.le_refl n)).logs) env s

theorem before_spec {l : List LogEvent} {o o' : Option (List LogEvent)} (h : LogBefore (LogFine env) o o') (hl : o = some l) :
    ∃ l', o' = some l' ∧ (LogPrefix l l' ∨ (∃ t, env.logOk t = false) ∧ LogLost l l') := by
  obtain ⟨l', h1, h2⟩ := h l hl
  refine ⟨l', h1, h2.imp_right fun h => ⟨?_, h.2⟩⟩
  have h3 := h.1
  unfold LogFine at h3
  rw [Classical.not_forall] at h3
  obtain ⟨t, ht⟩ := h3
  exact ⟨t, Bool.eq_false_iff.2 ht⟩

/-- C69: the log of a call with limits, interrupts and failures of the logger is the first part of that of the call without;
one message may be lost if the logger fails. -/
theorem cut_log (alg : Alg) (E : SameSolver False env calm) (hn : n₁ ≤ n₂) (limits : Limits)
    (hdone : (alg.solve n₂ Limits.none calm s).1 = .ok ()) {l : List LogEvent}
    (hl : (alg.solve n₁ limits env s).2.io.logger = some l) :
    ∃ l', (alg.solve n₂ Limits.none calm s).2.io.logger = some l' ∧
      (LogPrefix l l' ∨ (∃ t, env.logOk t = false) ∧ LogLost l l') :=
  before_spec
    ((outcome_solve alg hn limits E (s₁ := s) (s₂ := s) ⟨rfl, rfl, rfl, rfl, rfl, .inr ⟨rfl, rfl⟩⟩).log hdone) hl

/-- C69: if the call is not cut short, then the logs are the same. -/
theorem not_cut_log (alg : Alg) (E : SameSolver False env calm) (hn : n₁ ≤ n₂) (limits : Limits)
    (hdone : (alg.solve n₁ limits env s).1 = .ok ()) :
    (alg.solve n₁ limits env s).2.io.logger = (alg.solve n₂ Limits.none calm s).2.io.logger := by
  have h := outcome_solve alg hn limits E (s₁ := s) (s₂ := s) ⟨rfl, rfl, rfl, rfl, rfl, .inr ⟨rfl, rfl⟩⟩
  exact ((outcome_ok h hdone).2.time.resolve_left id).2

/-- C69: the driver with core boosting and `solve`. -/
theorem runAlg_cut_log [LawfulUbEnc P] [LawfulUbEnc C] [LawfulTotDb D] [LawfulMergeEnc P C D] (alg : Alg)
    (cb : Option CbOptions) (E : SameSolver False env calm) (hn : n₁ ≤ n₂) (limits : Limits)
    (hs : s.io.lims = Limits.none) {w : List Termination} (hdone : (runAlg D alg n₂ cb Limits.none calm s).1 = .ok w) {l : List LogEvent}
    (hl : (runAlg D alg n₁ cb limits env s).2.io.logger = some l) :
    ∃ l', (runAlg D alg n₂ cb Limits.none calm s).2.io.logger = some l' ∧
      (LogPrefix l l' ∨ (∃ t, env.logOk t = false) ∧ LogLost l l') := by
  have hcb : ∀ o, Outcome False (LogFine env) (coreBoost D n₁ o env s) (coreBoost D n₂ o calm s) := fun o =>
    (rel_coreBoost hn o).run env calm E s s (.refl hs)
  have hend : ∀ o t, (coreBoost D n₂ o calm s).1 ≠ .error (.terminated t) := fun o t =>
    (rel_coreBoost (T := False) hn o).ends calm s t E.flag hs
  have hsolve : ∀ s' : Slv P C, ∀ t, (alg.solve n₂ Limits.none calm s').1 ≠ .error (.terminated t) := by
    intro s' t h
    have : (startSolving Limits.none >>= fun _ => (alg.main n₂ : M P C Unit)) calm s' = alg.solve n₂ Limits.none calm s' := by
      cases alg <;> rfl
    rw [← this] at h
    exact ends_bind (fun _ _ => rfl) (by simp [startSolving, modifyS])
      (fun _ s'' hs'' => (rel_main (T := False) alg (Nat.le_refl n₂)).ends calm s'' t E.flag hs'') h
  suffices h : LogBefore (LogFine env) (runAlg D alg n₁ cb limits env s).2.io.logger (runAlg D alg n₂ cb Limits.none calm s).2.io.logger from
    before_spec h hl
  clear hl
  by_cases hg2 : GoesOn D n₂ cb calm s
  · obtain ⟨b1, b2⟩ := runAlg_goesOn alg Limits.none hg2
    have hd2 : (alg.solve n₂ Limits.none calm (afterBoost D n₂ cb calm s)).1 = .ok () := by
      rw [b2] at hdone
      have h3 := hsolve (afterBoost D n₂ cb calm s)
      revert hdone h3
      generalize (alg.solve n₂ Limits.none calm (afterBoost D n₂ cb calm s)).1 = r
      intro h₂ h3
      rcases r with e | u
      · cases e with
        | terminated t => exact absurd rfl (h3 t)
        | _ => simp at h₂
      · rfl
    rw [b1]
    by_cases hg : GoesOn D n₁ cb env s
    · obtain ⟨a1, -⟩ := runAlg_goesOn alg limits hg
      rw [a1]
      have hsame : SameState False (afterBoost D n₁ cb env s) (afterBoost D n₂ cb calm s) := by
        cases cb with
        | none => exact .refl hs
        | some o => exact (outcome_ok (hcb o) (hg o rfl)).2
      exact (outcome_solve alg hn limits E hsame.alike).log hd2
    · obtain ⟨a1, o, rfl, -⟩ := runAlg_stops alg limits hg
      rw [a1]
      exact ((hcb o).log (hg2 o rfl)).trans_grows (lg_solve alg n₂ calm _)
  · obtain ⟨b1, o, rfl, b2⟩ := runAlg_stops alg Limits.none hg2
    have hd2 : ∃ b, (coreBoost D n₂ o calm s).1 = .ok b := by
      rw [b2] at hdone
      have h3 := hend o
      revert hdone h3
      generalize (coreBoost D n₂ o calm s).1 = r
      intro h₂ h3
      rcases r with e | u
      · cases e with
        | terminated t => exact absurd rfl (h3 t)
        | _ => simp at h₂
      · exact ⟨u, rfl⟩
    obtain ⟨b, hd2⟩ := hd2
    have hg : ¬GoesOn D n₁ (some o) env s := fun hg => hg2 fun o' ho' => by
      cases ho'
      exact (outcome_ok (hcb o) (hg o rfl)).1
    obtain ⟨a1, -⟩ := runAlg_stops alg limits hg
    rw [a1, b1]
    exact (hcb o).log hd2

/-! ### Examples -/

/-- The log of a run of lower-bounding with enumeration. -/
def Example.cutLog (limits : Limits) (env : Env) : List LogEvent :=
  ((Example.final Example.twice .lowerBounding { enumeration := .solutions none } limits env).bind fun r => r.2.io.logger).getD []

/-- The complete log has 81 messages. A flag cuts it after 24 or 47 of them. -/
example : (Example.cutLog Limits.none (refEnv true)).length = 81 ∧
    Example.cutLog Limits.none (Example.stopAt 35 1000) = (Example.cutLog Limits.none (refEnv true)).take 24 ∧
    Example.cutLog Limits.none (Example.stopAt 70 1000) = (Example.cutLog Limits.none (refEnv true)).take 47 :=
  ⟨by decide +kernel, by decide +kernel, by decide +kernel⟩

/-- With a limit on the number of solutions, the last message is about a point that gets a second solution in the complete
run. -/
example : Example.cutLog { sols := some 3 } (refEnv true) = (Example.cutLog Limits.none (refEnv true)).take 64 ++
      [.nonDominated ⟨[3, 1], [[.tt, .tt, .ff, .ff, .tt]]⟩] ∧
    (Example.cutLog Limits.none (refEnv true))[71]? =
      some (.nonDominated ⟨[3, 1], [[.tt, .tt, .ff, .ff, .tt], [.tt, .tt, .ff, .ff, .ff]]⟩) :=
  ⟨by decide +kernel, by decide +kernel⟩

/-- C69: a message can be lost. If the one about a non-dominated point fails, then the end of the routine is still logged,
and the log is not the first part of the complete one. -/
theorem cut_log_counterexample : ∃ (env calm : Env) (s : Slv (RefEnc 1) (RefEnc 0)) (l l' : List LogEvent),
    SameSolver False env calm ∧ (Alg.lowerBounding.solve 50 Limits.none calm s).1 = .ok () ∧
    (Alg.lowerBounding.solve 50 Limits.none env s).2.io.logger = some l ∧
    (Alg.lowerBounding.solve 50 Limits.none calm s).2.io.logger = some l' ∧ ¬LogPrefix l l' := by
  have hc : ((Alg.lowerBounding.new (P := RefEnc 1) (C := RefEnc 0) Example.twice defaultBlockingClause
      { enumeration := .solutions none }).any fun s =>
      (match (Alg.lowerBounding.solve 50 Limits.none (refEnv true) s.attachLogger).1 with | .ok () => true | .error _ => false) &&
      (match (Alg.lowerBounding.solve 50 Limits.none (Example.stopAt 1000 50) s.attachLogger).2.io.logger,
        (Alg.lowerBounding.solve 50 Limits.none (refEnv true) s.attachLogger).2.io.logger with
      | some l, some l' => !l.isPrefixOf l' && l.getLast? == some .routineEnd
      | _, _ => false)) = true := by decide +kernel
  rw [Option.any_eq_true] at hc
  obtain ⟨s, -, hc⟩ := hc
  rw [Bool.and_eq_true] at hc
  obtain ⟨h1, h2⟩ := hc
  split at h2
  · rename_i l l' hl hl'
    refine ⟨_, _, s.attachLogger, l, l', Example.stopAt_same False 1000 50, ?_, hl, hl', fun h => ?_⟩
    · split at h1
      · assumption
      · cases h1
    · rw [Bool.and_eq_true] at h2
      obtain ⟨h2, h3⟩ := h2
      cases h with
      | first _ rest =>
        rw [List.isPrefixOf_iff_prefix.2 ⟨rest, rfl⟩] at h2
        cases h2
      | last pre mid rest p q _ _ _ =>
        rw [List.getLast?_append] at h3
        simp at h3
  · cases h2

/-- The driver: a run with core boosting and a limit, and one without. -/
def Example.drvLog (limits : Limits) : List LogEvent :=
  ((Alg.lowerBounding.new (P := RefTot.RefTree 1) (C := RefTot.RefTree 0) Example.twice defaultBlockingClause {}).bind fun s =>
    (runAlg RefTot .lowerBounding 50 (some {}) limits (refEnv true) s.attachLogger).2.io.logger).getD []

example : (Example.drvLog { pps := some 1 }).length < (Example.drvLog Limits.none).length ∧
    (Example.drvLog { pps := some 1 }).isPrefixOf (Example.drvLog Limits.none) ∧
    .ideal [2, 0] ∈ Example.drvLog { pps := some 1 } := by decide +kernel

end Scuttle
