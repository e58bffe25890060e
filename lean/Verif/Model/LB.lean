import Verif.Model.PMin

/-!
# Lower-bounding

Models `/repo/core/src/algs/lowerbounding.rs` without proof logging.
-/

namespace Scuttle

variable {P C : Type} [UbEnc P] [UbEnc C]

/-- `Fence::assumps`, `/repo/core/src/algs/lowerbounding.rs:406-410`. -/
def fenceAssumps (f : List (Nat × List Lit)) : List Lit := f.flatMap Prod.snd

/-- `Fence::bounds`, `/repo/core/src/algs/lowerbounding.rs:412-414`. -/
def fenceBounds (f : List (Nat × List Lit)) : List Nat := f.map Prod.fst

/-- Index of the first entry of the fence that was not increased yet and contains the negation of `clit`: the inner
loop of `update_fence`, `/repo/core/src/algs/lowerbounding.rs:430-441`. -/
def fenceMatch (clit : Lit) : List Bool → List (Nat × List Lit) → Nat → Option Nat
  | f :: fs, p :: ps, i =>
    if !f && p.2.any (fun a => a.not == clit) then some i else fenceMatch clit fs ps (i + 1)
  | _, _, _ => none

/-- Loop of `update_fence` over the core, `/repo/core/src/algs/lowerbounding.rs:429-452`. -/
def updateFenceLoop : List Lit → List Bool → M P C Unit
  | [], _ => M.pure ()
  | clit :: core, found => do
    let s ← getS
    match fenceMatch clit found s.fence 0 with
    | none => updateFenceLoop core found
    | some i => do
      let p ← unwrap s.fence[i]?
      let e ← encAt i
      let b ← unwrap (e.nextHigher p.1)
      extendEncoding i b (b + 1)
      let e ← encAt i
      let ls ← unwrap (e.enforceUb b)
      modifyS fun s => { s with fence := s.fence.set i (b, ls) }
      updateFenceLoop core (found.set i true)

/-- `Kernel::update_fence`, `/repo/core/src/algs/lowerbounding.rs:422-457`. -/
def updateFence (core : List Lit) : M P C Unit := do
  let s ← getS
  updateFenceLoop core (s.fence.map fun _ => false)
  let s ← getS
  logEvent (.fence (fenceBounds s.fence))

/-- `Kernel::harvest`, `/repo/core/src/algs/lowerbounding.rs:467-550`. -/
def harvest (fuel : Nat) (base : List Lit) : M P C Unit := do
  let s ← getS
  dbg (s.encs.length == s.io.stats.nObjs)
  logRoutineStart "harvest"
  loopM (harvestBody fuel (base ++ fenceAssumps s.fence) base) fuel ()

/-- Initialization of the fence, `/repo/core/src/algs/lowerbounding.rs:272-294`: the encodings with indices `i`, `i + 1`,
… are handled in turn, `n` is their number. -/
def initFenceLoop : Nat → Nat → M P C Unit
  | _, 0 => M.pure ()
  | i, n + 1 => do
    let e ← encAt i
    extendEncoding i e.offset (e.offset + 1)
    let e ← encAt i
    let ls ← unwrap (e.enforceUb e.offset)
    modifyS fun s => { s with fence := s.fence ++ [(e.offset, ls)] }
    initFenceLoop (i + 1) n

/-- Initialization of the fence if not yet done, `/repo/core/src/algs/lowerbounding.rs:271-294`. -/
def initFence : M P C Unit := do
  let s ← getS
  if s.fence.isEmpty then initFenceLoop 0 s.encs.length else M.pure ()

/-- The check that the fence has increased, `/repo/core/src/algs/lowerbounding.rs:314-326`. -/
def fenceIncreased (old new : List Nat) : Bool :=
  (old.zip new).all (fun p => p.1 ≤ p.2) && (old.zip new).any (fun p => p.1 < p.2)

/-- Body of the loop of `alg_main`, `/repo/core/src/algs/lowerbounding.rs:295-330`. -/
def lbBody (fuel : Nat) (_ : Unit) : M P C (Unit ⊕ Unit) := do
  let s ← getS
  match ← solveAssumps (fenceAssumps s.fence) with
  | .sat => do
    harvest fuel []
    M.pure (.inl ())
  | .unsat => do
    let core ← oracleCore
    if core.isEmpty then do
      logRoutineEnd
      M.pure (.inr ())
    else do
      let old ← getS
      updateFence core
      let new ← getS
      dbg (fenceIncreased (fenceBounds old.fence) (fenceBounds new.fence))
      M.pure (.inl ())
  | .interrupted => stop .panic

/-- `LowerBounding::alg_main`, `/repo/core/src/algs/lowerbounding.rs:267-332`. -/
def lbMain (fuel : Nat) : M P C Unit := do
  let s ← getS
  dbg (s.encs.length == s.io.stats.nObjs)
  logRoutineStart "lower-bounding"
  initFence
  loopM (lbBody fuel) fuel ()

/-- `LowerBounding::solve`, `/repo/core/src/algs/lowerbounding.rs:88-91`. -/
def lbSolve (fuel : Nat) (limits : Limits) : M P C Unit := do
  startSolving limits
  lbMain fuel

end Scuttle
