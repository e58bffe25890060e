import Verif.Model.Kernel

/-!
# BiOptSat

Models `/repo/core/src/algs/bioptsat.rs` without proof logging.
-/

namespace Scuttle

variable {P C : Type} [UbEnc P] [UbEnc C]

/-- `atomics::cube_impl_cube` of `rustsat`: the first cube implies each literal of the second. -/
def cubeImplCube (a b : List Lit) : List Clause := b.map fun l => a.map Lit.not ++ [l]

/-- `BiOptSat::init`, `/repo/core/src/algs/bioptsat.rs:211-245`: as for the other algorithms, but with exactly two
objectives; `none` is the failed assertion. -/
def Slv.initBos (k : Kern) (io : Io) : Option (Slv P C) :=
  if io.stats.nObjs = 2 then some (Slv.init k io) else none

/-- State of the loop of `bioptsat`: `inc_lb`, `inc_cost`, `sol`. -/
abbrev BosState := Nat × Nat × Assignment

/-- End of the body of the loop of `bioptsat`, `/repo/core/src/algs/bioptsat.rs:500-776` without proof logging: skip to
the next non-dominated point. -/
def bosNext (incObj : Nat) (base : List Lit) (incCost decCost : Nat) : M P C (BosState ⊕ Unit) := do
  extendEncoding 1 (decCost - 1) decCost
  let e ← encAt 1
  let ls ← orErr (e.enforceUb (decCost - 1))
  addClauses (cubeImplCube base ls)
  match ← solveAssumps base with
  | .sat => do
    let sol ← oracleSolution
    let (cost, sol) ← getCostTight incObj sol true
    M.pure (.inl (incCost + 1, cost, sol))
  | .unsat => do
    logRoutineEnd
    M.pure (.inr ())
  | .interrupted => stop .panic

/-- Body of the loop of `bioptsat`, `/repo/core/src/algs/bioptsat.rs:397-777`. -/
def bosBody (fuel incObj decObj : Nat) (base : List Lit) (decLb : Nat) (lookup : Nat → Option Nat) (st : BosState) :
    M P C (BosState ⊕ Unit) := do
  match ← linsu fuel incObj 0 base (some (st.2.1, some st.2.2)) (some st.1) with
  | none => do
    logRoutineEnd
    M.pure (.inr ())
  | some (incCost, sol) => do
    let decCost ← getCost decObj sol
    let decCost ← (match lookup incCost with
      | some found => M.pure found
      | none => do
        extendEncoding 0 incCost (incCost + 1)
        let e ← encAt 0
        let ls ← unwrap (e.enforceUb incCost)
        let r ← linsuYield fuel decObj 1 (base ++ ls) (some (decCost, some sol)) (some decLb)
        let r ← unwrap r
        M.pure r.1)
    if decCost ≤ decLb then do
      logRoutineEnd
      M.pure (.inr ())
    else bosNext incObj base incCost decCost

/-- `Kernel::bioptsat`, `/repo/core/src/algs/bioptsat.rs:360-780`. -/
def bioptsat (fuel incObj decObj : Nat) (base : List Lit) (start : Option (Nat × Assignment)) (incLb decLb : Option Nat)
    (lookup : Nat → Option Nat) : M P C Unit := do
  logRoutineStart "bioptsat"
  let s ← getS
  dbg (s.encs.length == 2)
  let e0 ← encAt 0
  let e1 ← encAt 1
  let incLb := incLb.getD e0.offset
  let decLb := decLb.getD e1.offset
  match start with
  | some b => loopM (bosBody fuel incObj decObj base decLb lookup) fuel (incLb, b.1, b.2)
  | none => do
    let res ← solveAssumps base
    if res = .unsat then M.pure ()
    else do
      let sol ← oracleSolution
      let (cost, sol) ← getCostTight incObj sol true
      loopM (bosBody fuel incObj decObj base decLb lookup) fuel (incLb, cost, sol)

/-- `BiOptSat::alg_main`, `/repo/core/src/algs/bioptsat.rs:262-272`. -/
def bosMain (fuel : Nat) : M P C Unit := bioptsat fuel 0 1 [] none none none (fun _ => none)

/-- `BiOptSat::solve`, `/repo/core/src/algs/bioptsat.rs:81-84`. -/
def bosSolve (fuel : Nat) (limits : Limits) : M P C Unit := do
  startSolving limits
  bosMain fuel

end Scuttle
