import Verif.Model.Inprocess

/-!
# Core boosting with proof logging

What `core_boost` does if `proof_stuff` is there, apart from the lines of the proof (`Model/OllLog.lean`). What the solver
does in release builds after its oracle was replaced by one without tracer is not modelled.
-/

namespace Scuttle

variable {P C D : Type} [UbEnc P] [UbEnc C] [TotDb D] [MergeEnc P C D]

/-- Loop that replaces the encodings, with a proof: `/repo/core/src/algs/pminimal.rs:377-404`,
`/repo/core/src/algs/bioptsat.rs:308-339`, `/repo/core/src/algs/lowerbounding.rs:366-393`. The debug assertion is at `:379`,
`:310` and `:368`. -/
def replaceEncsCert (rebase reset : Bool) : Nat → List (Reform × D) → M P C Unit
  | _, [] => M.pure ()
  | i, (reform, d) :: rs => do
    (if reset then dbg false else M.pure ())
    let d := if reset then TotDb.resetVars d else d
    let s ← getS
    let o ← unwrap s.k.objs[i]?
    if o.isConstant then M.pure () else do
      let e ← mergeReform reform d rebase
      let s ← getS
      let _ ← unwrap s.encs[i]?
      modifyS fun s => { s with encs := s.encs.set i e }
    checkTermination
    replaceEncsCert rebase reset (i + 1) rs

/-- `CoreBoost::core_boost` with a proof: `/repo/core/src/algs/pminimal.rs:353-407`,
`/repo/core/src/algs/lowerbounding.rs:342-396`, `/repo/core/src/algs/bioptsat.rs:282-342`. -/
def coreBoostCert (D : Type) [TotDb D] [MergeEnc P C D] (fuel : Nat) (opts : CbOptions) : M P C Bool := do
  let s ← getS
  if s.io.stats.nSolveCalls ≠ 0 then stop .error
  else do
    match ← kernelCoreBoost D fuel with
    | none => M.pure false
    | some res => do
      checkTermination
      (if opts.after = .reset then do
        resetOracle true
        checkTermination
      else M.pure ())
      logRoutineStart "merge encodings"
      replaceEncsCert opts.rebase (opts.after = .reset) 0 res
      logRoutineEnd
      M.pure true

/-- `CoreBoost::core_boost` with inprocessing and a proof; the debug assertion is at
`/repo/core/src/algs/coreboosting.rs:255`. -/
def coreBoostInproCert (D : Type) [TotDb D] [MergeEnc P C D] [InproDb D] (alg : Alg) (mp : MaxPre) (fuel : Nat) :
    M P C Bool := do
  let s ← getS
  if s.io.stats.nSolveCalls ≠ 0 then stop .error
  else do
    match ← kernelCoreBoost D fuel with
    | none => M.pure false
    | some res => do
      checkTermination
      dbg false
      let encs ← inprocess mp res
      setInproEncs alg encs
      checkTermination
      M.pure true

end Scuttle
