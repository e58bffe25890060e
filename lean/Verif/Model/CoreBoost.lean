import Verif.Model.CoreGuided
import Verif.Model.Alg

/-!
# Core boosting

Models `/repo/core/src/algs/coreboosting.rs` and the implementations of `CoreBoost`, without proof logging and without
inprocessing (feature `maxpre`).
-/

namespace Scuttle

variable {P C D : Type} [UbEnc P] [UbEnc C] [TotDb D] [MergeEnc P C D]

/-- `AfterCbOptions`, `/repo/core/src/options.rs:46-55`, without `Inpro`. -/
inductive AfterCb where
  | nothing
  | reset
  deriving DecidableEq, Repr

/-- `CoreBoostingOptions`, `/repo/core/src/options.rs:37-42`. -/
structure CbOptions where
  rebase : Bool := false
  after : AfterCb := .nothing
  deriving DecidableEq, Repr

/-- `MergeOllRef::merge_cons`, `/repo/core/src/algs/coreboosting.rs:49-77`. -/
def mergeCons (cons : List NodeCon) (d : D) (offset maxLeafWeight : Nat) : M P C (ObjEnc P C) := do
  let (d, root) := MergeEnc.mergeThorough P C d cons
  if root.weight = 1 then
    if MergeEnc.isUnit P C d root.id then
      M.pure (.unweighted (MergeEnc.totFromRaw P root.id root.offset d) offset)
    else do
      dbg (root.offset == 0)
      M.pure (.weighted (MergeEnc.gteFromRaw C root d maxLeafWeight) offset)
  else M.pure (.weighted (MergeEnc.gteFromRaw C root d maxLeafWeight) offset)

/-- Connections for one literal of the reformulated objective, `/repo/core/src/algs/coreboosting.rs:90-123`. -/
def litCons (refs : List (Lit × ReformData)) (rebase : Bool) (d : D) (p : Lit × Nat) : M P C (List NodeCon × D) :=
  match mapGet p.1 refs with
  | some rd => do
    dbg (p.2 != 0)
    dbg (decide (rd.oidx < TotDb.len d rd.root))
    if rebase then
      M.pure (NodeCon.single rd.root (rd.oidx + 1) p.2 ::
        (List.range' (rd.oidx + 1) (TotDb.len d rd.root - (rd.oidx + 1))).map
          (fun idx => NodeCon.single rd.root (idx + 1) rd.totWeight), d)
    else if rd.totWeight = p.2 then M.pure ([NodeCon.offsetWeighted rd.root rd.oidx p.2], d)
    else
      M.pure (NodeCon.single rd.root (rd.oidx + 1) p.2 ::
        (if rd.oidx + 1 < TotDb.len d rd.root then [NodeCon.offsetWeighted rd.root (rd.oidx + 1) rd.totWeight] else []), d)
  | none =>
    let (d, id) := TotDb.leaf d p.1
    M.pure ([NodeCon.weighted id p.2], d)

/-- Loop of `merge`, `/repo/core/src/algs/coreboosting.rs:90-123`: connections and database. -/
def mergeLoop (refs : List (Lit × ReformData)) (rebase : Bool) :
    List (Lit × Nat) → List NodeCon → D → M P C (List NodeCon × D)
  | [], cons, d => M.pure (cons, d)
  | p :: ps, cons, d => do
    let (cs, d) ← litCons refs rebase d p
    mergeLoop refs rebase ps (cons ++ cs) d

/-- `max_leaf_weight` in `/repo/core/src/algs/coreboosting.rs:89-101`. -/
def maxLeafWeight (refs : List (Lit × ReformData)) (lits : List (Lit × Nat)) : Nat :=
  lits.foldl (fun m p => match mapGet p.1 refs with
    | some rd => max rd.totWeight (max p.2 m)
    | none => max p.2 m) 0

/-- `MergeOllRef::merge`, `/repo/core/src/algs/coreboosting.rs:79-125`. -/
def mergeReform (reform : Reform) (d : D) (rebase : Bool) : M P C (ObjEnc P C) :=
  if reform.inactives = .constant then M.pure .constant
  else do
    let (cons, d) ← mergeLoop reform.refs rebase reform.inactives.iter [] d
    mergeCons cons d reform.offset (maxLeafWeight reform.refs reform.inactives.iter)

/-- `objs[obj_idx].set_lower_bound`, `/repo/core/src/algs/coreboosting.rs:216`. -/
def setLowerBoundAt (i b : Nat) : M P C Unit := modifyS fun s =>
  { s with k := { s.k with objs := s.k.objs.modify i (Objective.setLowerBound b) } }

/-- Loop of `core_boost` over the objectives, `/repo/core/src/algs/coreboosting.rs:140-218`, for `n` objectives from
index `i` on. The flag tells whether the instance was found unsatisfiable. -/
def coreBoostLoop (D : Type) [TotDb D] (fuel : Nat) : Nat → Nat → List (Reform × D) → M P C (List (Reform × D) × Bool)
  | 0, _, acc => M.pure (acc, false)
  | n + 1, i, acc => do
    let s ← getS
    let o ← unwrap s.k.objs[i]?
    let r ← (if o.isConstant then M.pure (some (Reform.ofObjective o, TotDb.empty)) else do
      let r ← oll fuel (Reform.ofObjective o) [] (TotDb.empty : D) true
      match r.1 with
      | some _ => M.pure (some r.2)
      | none => M.pure none)
    match r with
    | none => M.pure (acc, true)
    | some (reform, d) => do
      setLowerBoundAt i reform.offset
      coreBoostLoop D fuel n (i + 1) (acc ++ [(reform, d)])

/-- `Kernel::core_boost`, `/repo/core/src/algs/coreboosting.rs:136-225`. -/
def kernelCoreBoost (D : Type) [TotDb D] (fuel : Nat) : M P C (Option (List (Reform × D))) := do
  logRoutineStart "core boost"
  let s ← getS
  let r ← coreBoostLoop D fuel s.io.stats.nObjs 0 []
  logRoutineEnd
  logEvent (.ideal (r.1.map fun p => p.1.offset))
  M.pure (if r.2 then none else some r.1)

/-- Loop that replaces the encodings, `/repo/core/src/algs/pminimal.rs:377-404`, from index `i` on. -/
def replaceEncs (rebase reset : Bool) : Nat → List (Reform × D) → M P C Unit
  | _, [] => M.pure ()
  | i, (reform, d) :: rs => do
    let d := if reset then TotDb.resetVars d else d
    let s ← getS
    let o ← unwrap s.k.objs[i]?
    if o.isConstant then M.pure () else do
      let e ← mergeReform reform d rebase
      let s ← getS
      let _ ← unwrap s.encs[i]?
      modifyS fun s => { s with encs := s.encs.set i e }
    checkTermination
    replaceEncs rebase reset (i + 1) rs

/-- `CoreBoost::core_boost`: `/repo/core/src/algs/pminimal.rs:353-407`, `/repo/core/src/algs/lowerbounding.rs:342-396`,
`/repo/core/src/algs/bioptsat.rs:282-342`; the three are the same without inprocessing. -/
def coreBoost (D : Type) [TotDb D] [MergeEnc P C D] (fuel : Nat) (opts : CbOptions) : M P C Bool := do
  let s ← getS
  if s.io.stats.nSolveCalls ≠ 0 then stop .error
  else do
    match ← kernelCoreBoost D fuel with
    | none => M.pure false
    | some res => do
      checkTermination
      (if opts.after = .reset then do
        resetOracle true
        checkTermination
      else M.pure ())
      logRoutineStart "merge encodings"
      replaceEncs opts.rebase (opts.after = .reset) 0 res
      logRoutineEnd
      M.pure true

/-- Calls on a solver, with core boosting. -/
inductive CallB where
  | call (c : Call)
  | coreBoost (fuel : Nat) (opts : CbOptions)

/-- Performs calls in turn, `/repo/core/src/algs.rs:110-136` and `CoreBoost::core_boost`. -/
def Alg.callsB (D : Type) [TotDb D] [MergeEnc P C D] (alg : Alg) (env : Env) : List CallB → Slv P C → Slv P C
  | [], s => s
  | .call c :: cs, s => alg.callsB D env cs (alg.calls env [c] s).2
  | .coreBoost fuel opts :: cs, s => alg.callsB D env cs (Scuttle.coreBoost D fuel opts env s).2

end Scuttle
