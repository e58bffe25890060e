import Verif.Proof.Io

/-!
# The number of calls to `solve` as an invariant
-/

set_option linter.unusedSectionVars false

namespace Scuttle

open Spec

variable {P C : Type} {env : Env} {s : Slv P C}

/-- Once `solve` was called, this stays so, however a run goes on and ends. -/
theorem calledLogic (env : Env) :
    IoLogic (P := P) (C := C) env (fun _ _ _ s => s.io.stats.nSolveCalls ≠ 0) (fun _ s => s.io.stats.nSolveCalls ≠ 0) where
  frame := fun h _ h' => by rw [h]; exact h'
  called := fun h => h
  halt := fun _ _ h => h
  start := fun _ _ h => wpio_logEvent (fun _ _ _ _ a _ _ => by rw [a]; exact h) (fun _ _ _ _ a _ _ _ => by rw [a]; exact h)
  finish := fun _ h => wpio_logEvent (fun _ _ _ _ a _ _ => by rw [a]; exact h) (fun _ _ _ _ a _ _ _ => by rw [a]; exact h)
  fence := fun _ _ h => wpio_logEvent (fun _ _ _ _ a _ _ => by rw [a]; exact h) (fun _ _ _ _ a _ _ _ => by rw [a]; exact h)
  heur := fun _ _ _ _ h => wpio_logEvent (fun _ _ _ _ a _ _ => by rw [a]; exact h) (fun _ _ _ _ a _ _ _ => by rw [a]; exact h)
  check := fun s h => wpio_check fun s' hs' => by
    subst hs'
    exact ⟨fun _ => h, fun _ => h⟩
  cand := fun costs ph s h => by
    unfold logCandidate
    rw [wp_bind, wp_getS, wp_bind, wp_dbg_iff]
    split
    · exact h
    · exact wpio_charge (k := .candidates) (ev := .candidate costs ph) (fun _ hc _ _ => by rw [hc.solveCalls]; exact h)
        (fun _ hc _ _ _ => by rw [hc.solveCalls]; exact h) (fun _ hc _ _ => by rw [hc.solveCalls]; exact h)
        (fun _ hc _ _ _ => by rw [hc.solveCalls]; exact h)
  call := fun a s h => wpio_solveAssumps (fun s' hs => by rw [hs.stats]; exact h)
    (fun s' hs => by rw [hs.stats]; exact h) fun s' r hs => by
      have h : s'.io.stats.nSolveCalls ≠ 0 := by rw [hs.stats]; exact h
      exact wpio_charge (k := .oracleCalls) (ev := .oracleCall r) (fun _ hc _ _ => by rw [hc.solveCalls]; exact h)
        (fun _ hc _ _ _ => by rw [hc.solveCalls]; exact h) (fun _ hc _ _ => by rw [hc.solveCalls]; exact h)
        (fun _ hc _ _ _ => by rw [hc.solveCalls]; exact h)
  sol := fun {d p c} nd hnd s h => by
    have key : ∀ e s1, s1.io.stats.nSolveCalls ≠ 0 → wp env (do
        let ndTerm ← attempt (logNonDominated nd)
        Scuttle.collect nd
        ofExcept ndTerm
        stop e : M P C Unit) (fun _ _ => True) (fun _ s => s.io.stats.nSolveCalls ≠ 0) s1 := by
      intro e s1 h1
      rw [wp_bind]
      refine wp_attempt ?_
      rw [logNonDominated_eq]
      have fin : ∀ (r : Except Stop Unit) (s2 : Slv P C), s2.io.stats.nSolveCalls ≠ 0 → wp env (do
          Scuttle.collect nd
          ofExcept r
          stop e : M P C Unit) (fun _ _ => True) (fun _ s => s.io.stats.nSolveCalls ≠ 0) s2 := by
        intro r s2 h2
        cases r <;> exact h2
      exact wpio_charge (fun s2 hc _ _ => fin _ s2 (by rw [hc.solveCalls]; exact h1))
        (fun s2 hc _ _ _ => fin _ s2 (by rw [hc.solveCalls]; exact h1))
        (fun s2 hc _ _ => fin _ s2 (by rw [hc.solveCalls]; exact h1))
        (fun s2 hc _ _ _ => by simp only; rw [hc.solveCalls]; exact h1)
    refine wp_attempt ?_
    rw [logSolution_eq]
    exact wpio_charge (fun s1 hc _ _ => by rw [hc.solveCalls]; exact h)
      (fun s1 hc _ _ _ => key _ s1 (by rw [hc.solveCalls]; exact h)) (fun s1 hc _ _ => key _ s1 (by rw [hc.solveCalls]; exact h))
      (fun s1 hc _ _ _ => by simp only; rw [hc.solveCalls]; exact h)
  point := fun {d p c} nd hnd s h => by
    have key : ∀ (r : Except Stop Unit) (s1 : Slv P C), s1.io.stats.nSolveCalls ≠ 0 → wp env (do
        Scuttle.collect nd
        logRoutineEnd
        ofExcept r : M P C Unit) (fun _ s => s.io.stats.nSolveCalls ≠ 0) (fun _ s => s.io.stats.nSolveCalls ≠ 0) s1 := by
      intro r s1 h1
      rw [wp_bind]
      show wp env (do logRoutineEnd; ofExcept r : M P C Unit) _ _ _
      rw [wp_bind]
      refine wpio_logEvent (fun s' _ _ _ a _ _ => ?_) (fun s' _ _ _ a _ _ _ => by rw [a]; exact h1)
      have h2 : s'.io.stats.nSolveCalls ≠ 0 := by rw [a]; exact h1
      cases r <;> exact h2
    rw [wp_bind]
    refine wp_attempt ?_
    rw [logNonDominated_eq]
    exact wpio_charge (fun s1 hc _ _ => key _ s1 (by rw [hc.solveCalls]; exact h))
      (fun s1 hc _ _ _ => key _ s1 (by rw [hc.solveCalls]; exact h)) (fun s1 hc _ _ => key _ s1 (by rw [hc.solveCalls]; exact h))
      (fun s1 hc _ _ _ => by simp only; rw [hc.solveCalls]; exact h)

end Scuttle
