import Verif.Proof.CoreProc
import Verif.Props.CoreGuided

/-!
# C28: the answer of OLL under base assumptions
-/

set_option linter.unusedSectionVars false

namespace Scuttle

open Spec

variable {P C D : Type} [TotDb D]
variable {env : Env} {s s' : Slv P C} {base : List Lit}

/-- What the oracle has answered. -/
def OllAnswered (env : Env) (db : List Clause) (as : List Lit) (r : SolverResult) (s : Slv P C) : Prop :=
  s.k.db = db ∧ (r = .sat → ∃ m t lim, s.k.ostate = .sat m ∧ env.oracle t lim db as = .sat m) ∧
    (r = .unsat → ∃ core t lim, s.k.ostate = .unsat core ∧ env.oracle t lim db as = .unsat core)

theorem wp_solveAssumps_answer (as : List Lit) :
    wp env (solveAssumps as) (OllAnswered env s.k.db as) anyStop s := by
  unfold solveAssumps logRoutineStart logRoutineEnd
  rw [wp_bind]
  refine wp_logEvent_any _ fun io1 => ?_
  rw [wp_bind]
  have horc : wp env (oracleSolve as : M P C SolverResult) (OllAnswered env s.k.db as) anyStop { s with io := io1 } := by
    unfold wp oracleSolve
    cases ho : env.oracle io1.tick s.k.conflLimited s.k.db as with
    | sat m => exact ⟨rfl, fun _ => ⟨m, io1.tick, s.k.conflLimited, rfl, ho⟩, by simp⟩
    | unsat core => exact ⟨rfl, by simp, fun _ => ⟨core, io1.tick, s.k.conflLimited, rfl, ho⟩⟩
    | interrupted => exact ⟨rfl, by simp, by simp⟩
  refine wp_mono horc ?_ (fun _ _ h => h)
  intro r s2 h2
  rw [wp_bind]
  refine wp_logEvent_any _ fun io3 => ?_
  rw [wp_bind]
  unfold wp checkTermination
  simp only
  split
  · rename_i hx
    split at hx
    · simp at hx
    · simp only [Prod.mk.injEq] at hx
      obtain ⟨-, rfl⟩ := hx
      show wp env (do logOracleCall r; M.pure r) _ anyStop _
      unfold logOracleCall bumpStats
      rw [wp_bind, wp_bind, wp_modifyS, wp_bind]
      refine wp_logEvent_any _ fun io4 => ?_
      unfold wp stepLimit
      simp only
      split
      · rename_i hy
        split at hy
        · simp at hy
        · split at hy
          · simp at hy
          · simp only [Prod.mk.injEq] at hy
            obtain ⟨-, rfl⟩ := hy
            exact h2
      · trivial
  · trivial

theorem wp_any {α : Type} (c : M P C α) : wp env c (fun _ _ => True) anyStop s := by
  unfold wp
  split <;> trivial

/-- An answer of OLL: the solution is the part below some variable of an assignment that meets the clauses and the base
assumptions; without one, no assignment meets them. -/
def Spec.OllAnswer (base : List Lit) (r : OllResult D) (db : List Clause) : Prop :=
  (∀ sol, r.1 = some sol → ∃ m n, 0 < n ∧ sol = Assignment.ofModel m n ∧ (∀ c ∈ db, ∃ l ∈ c, LitTrue m l) ∧
    ∀ l ∈ base, LitTrue m l) ∧
  (r.1 = none → ¬ ∃ m, (∀ c ∈ db, ∃ l ∈ c, LitTrue m l) ∧ ∀ l ∈ base, LitTrue m l)

theorem wp_oracleSolution_any {m : Asg} (hm : s.k.ostate = .sat m) :
    wp env oracleSolution (fun sol s' => s' = s ∧ ∃ n, 0 < n ∧ sol = Assignment.ofModel m n) anyStop s := by
  unfold oracleSolution
  rw [wp_bind, wp_getS, wp_bind]
  cases hv : s.k.vm.maxVar with
  | none => trivial
  | some v =>
    rw [wp_unwrap_some]
    simp only [hm]
    rw [wp_pure]
    exact ⟨rfl, v + 1, by omega, rfl⟩

theorem wp_reserveOutputs_db (ps : List (Lit × ReformData)) (d : D) :
    wp env (reserveOutputs ps d) (fun _ s' => s'.k.db = s.k.db) anyStop s := by
  induction ps generalizing d s with
  | nil => exact rfl
  | cons p ps ih =>
    unfold reserveOutputs
    rw [wp_bind, wp_getS, wp_bind, wp_modifyS]
    exact ih _

theorem wp_ollBody_answer (orc : CorrectOracle env) {sorted : List Lit} (hp : ∀ l, l ∈ sorted ↔ l ∈ base) (fuel : Nat)
    (exactRef : Bool) (st : OllState D) :
    wp env (ollBody fuel sorted base exactRef st) (fun r s' => match r with
      | .inl _ => True
      | .inr b => OllAnswer base b s'.k.db) anyStop s := by
  unfold ollBody
  rw [wp_bind]
  refine wp_mono (wp_any _) ?_ (fun _ _ h => h)
  rintro ⟨i, rest⟩ s1 -
  simp only
  rw [wp_bind]
  refine wp_mono (wp_solveAssumps_answer _) ?_ (fun _ _ h => h)
  rintro r s2 ⟨h1, h2, h3⟩
  cases r with
  | interrupted => trivial
  | sat =>
    obtain ⟨m, t, lim, hm, ho⟩ := h2 rfl
    obtain ⟨hc, ha⟩ := orc.sat _ _ _ _ _ ho
    simp only
    split
    · rw [wp_bind]
      refine wp_mono (wp_oracleSolution_any hm) ?_ (fun _ _ h => h)
      rintro sol s3 ⟨rfl, n, hn, hsol⟩
      have hfin : ∀ d2 s4, s4.k.db = s3.k.db → wp env (do
            logRoutineEnd
            M.pure (Sum.inr (some sol,
              { inactives := i.finalCleanup, refs := st.reform.refs, offset := st.reform.offset }, d2)) :
              M P C (OllState D ⊕ OllResult D))
          (fun r s' => match r with
            | .inl _ => True
            | .inr b => OllAnswer base b s'.k.db) anyStop s4 := by
        intro d2 s4 h4
        rw [wp_bind]
        unfold logRoutineEnd
        refine wp_logEvent_any _ fun io => ?_
        rw [wp_pure]
        refine ⟨fun sol' he => ?_, by simp⟩
        simp only [Option.some.injEq] at he
        exact ⟨m, n, hn, he ▸ hsol, by simp only [h4, h1]; exact hc,
          fun l hl => ha l (List.mem_append_left _ ((hp l).2 hl))⟩
      split
      · rw [wp_bind]
        exact wp_mono (wp_reserveOutputs_db _ _) (fun _ _ h => hfin _ _ h) (fun _ _ h => h)
      · rw [wp_bind, wp_pure]
        exact hfin _ _ rfl
    · rw [wp_bind]
      exact wp_mono (wp_any _) (fun _ _ _ => trivial) (fun _ _ h => h)
  | unsat =>
    obtain ⟨core, t, lim, hm, ho⟩ := h3 rfl
    obtain ⟨ha, hc⟩ := orc.unsat _ _ _ _ _ ho
    simp only
    rw [wp_bind]
    refine wp_oracleCore hm ?_
    split
    · next hemp =>
      rw [wp_bind]
      unfold logRoutineEnd
      refine wp_logEvent_any _ fun io => ?_
      rw [wp_pure]
      refine ⟨by simp, fun _ => ?_⟩
      rintro ⟨m, hm1, hm2⟩
      obtain ⟨l, hl, ht⟩ := hc m (by simp only [h1] at hm1; exact hm1)
      rcases filterBase_lost sorted core l hl with h | h
      · rw [List.isEmpty_iff.1 hemp] at h
        simp at h
      · exact absurd ht (litTrue_not.1 (hm2 _ ((hp _).1 h)))
    · rw [wp_bind]
      exact wp_mono (wp_any _) (fun _ _ _ => trivial) (fun _ _ h => h)

/-- C28: whatever the objective to start from and the base assumptions are, also if the objective is constant, a solution
that OLL returns is part of an assignment that meets the clauses and the base assumptions, and if it returns none then
there is none. -/
theorem oll_answer (orc : CorrectOracle env) {fuel : Nat} {reform : Reform} {d : D} {exactRef : Bool} {r : OllResult D}
    (h : oll fuel reform base d exactRef env s = (.ok r, s')) : OllAnswer base r s'.k.db := by
  have key : wp env (oll fuel reform base d exactRef) (fun r s' => OllAnswer base r s'.k.db) anyStop s := by
    unfold oll
    split
    · rw [wp_bind]
      refine wp_mono (wp_solveAssumps_answer _) ?_ (fun _ _ h => h)
      rintro r s2 ⟨h1, h2, h3⟩
      cases r with
      | interrupted => trivial
      | sat =>
        obtain ⟨m, t, lim, hm, ho⟩ := h2 rfl
        obtain ⟨hc, ha⟩ := orc.sat _ _ _ _ _ ho
        simp only
        rw [wp_bind]
        refine wp_mono (wp_oracleSolution_any hm) ?_ (fun _ _ h => h)
        rintro sol s3 ⟨rfl, n, hn, hsol⟩
        rw [wp_pure]
        refine ⟨fun sol' he => ?_, by simp⟩
        simp only [Option.some.injEq] at he
        exact ⟨m, n, hn, he ▸ hsol, by rw [h1]; exact hc, ha⟩
      | unsat =>
        obtain ⟨core, t, lim, hm, ho⟩ := h3 rfl
        obtain ⟨ha, hc⟩ := orc.unsat _ _ _ _ _ ho
        simp only
        rw [wp_pure]
        refine ⟨by simp, fun _ => ?_⟩
        rintro ⟨m, hm1, hm2⟩
        rw [h1] at hm1
        obtain ⟨l, hl, ht⟩ := hc m hm1
        exact absurd ht (litTrue_not.1 (hm2 _ (ha l hl)))
    · rw [wp_bind]
      unfold logRoutineStart
      refine wp_logEvent_any _ fun io => ?_
      refine wp_loop_inv (fun _ _ => True) fuel _ _ (fun st s1 _ => ?_) (fun _ _ _ => trivial) trivial
      refine wp_mono (wp_ollBody_answer orc (fun l => (sortLits_sorted base).1.mem_iff) fuel exactRef st) ?_ (fun _ _ h => h)
      rintro (st' | b) s2 h2
      · trivial
      · exact h2
  unfold wp at key
  rw [h] at key
  exact key

/-- Solution and offset of OLL on an instance. -/
def Example.ollFrom (inst : Instance) (o : Objective) (base : List Lit) : Option (Option (Option Assignment × Nat)) :=
  (Alg.pMinimal.new (P := RefTot.RefTree 1) (C := RefTot.RefTree 0) inst defaultBlockingClause {}).map fun s =>
    match (oll 50 (Reform.ofObjective o) base (TotDb.empty : RefTot) true (refEnv true) s).1 with
    | .ok r => some (r.1, r.2.1.offset)
    | .error _ => none

/-- OLL with base assumptions that leave one solution, and with ones that leave none; the oracle is the one of
`refEnv_correct`. -/
example : Example.ollFrom Example.cores (.weighted 0 [(Lit.pos 0, 2), (Lit.pos 1, 2), (Lit.pos 2, 3)] 0 0)
      [Lit.negOf 1, Lit.negOf 0] = some (some (some [.ff, .ff, .tt, .ff], 3)) ∧
    Example.ollFrom Example.cores (.weighted 0 [(Lit.pos 0, 2), (Lit.pos 1, 2), (Lit.pos 2, 3)] 0 0)
      [Lit.negOf 1, Lit.negOf 0, Lit.negOf 2] = some (some (none, 2)) := by decide +kernel

/-- The same for a constant objective. -/
example : Example.ollFrom Example.cores (.constant 1 0 0) [Lit.negOf 1, Lit.negOf 0] =
      some (some (some [.ff, .ff, .tt], 0)) ∧
    Example.ollFrom Example.cores (.constant 1 0 0) [Lit.negOf 1, Lit.negOf 0, Lit.negOf 2] =
      some (some (none, 0)) := by decide +kernel

end Scuttle
