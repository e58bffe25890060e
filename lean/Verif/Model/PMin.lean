import Verif.Model.Kernel

/-!
# P-minimal

Models `/repo/core/src/algs/pminimal.rs` without proof logging and coarse convergence.
-/

namespace Scuttle

variable {P C : Type} [UbEnc P] [UbEnc C]

/-- `atomics::lit_impl_cube` of `rustsat`: `a → l` for each literal of the cube. -/
def litImplCube (a : Lit) (ls : List Lit) : List Clause := ls.map fun l => [a.not, l]

/-- Loop of `dominated_block_clause`, `/repo/core/src/algs/pminimal.rs:618-653`, starting at index `i` with clause `cl`. -/
def domBlockLoop : Nat → List Nat → Clause → M P C Clause
  | _, [], cl => M.pure cl
  | i, c :: cs, cl => do
    let e ← encAt i
    if c ≤ e.offset then domBlockLoop (i + 1) cs cl
    else if e.isConstant then domBlockLoop (i + 1) cs cl
    else do
      extendEncoding i (c - 1) c
      let e ← encAt i
      let ls ← orErr (e.enforceUb (c - 1))
      match ls with
      | [l] => domBlockLoop (i + 1) cs (cl ++ [l])
      | ls => do
        dbg (!ls.isEmpty)
        let v ← freshVar
        addClauses (litImplCube (Lit.pos v) ls)
        domBlockLoop (i + 1) cs (cl ++ [Lit.pos v])

/-- `Kernel::dominated_block_clause`, `/repo/core/src/algs/pminimal.rs:610-655`. -/
def dominatedBlockClause (costs : List Nat) : M P C Clause := do
  let s ← getS
  dbg (costs.length == s.encs.length)
  domBlockLoop 0 costs []

/-- `Kernel::tmp_block_dominated`, `/repo/core/src/algs/pminimal.rs:660-679`. -/
def tmpBlockDominated (costs : List Nat) : M P C Lit := do
  let s ← getS
  dbg (costs.length == s.io.stats.nObjs)
  let clause ← dominatedBlockClause costs
  let v ← freshVar
  addClause (clause ++ [Lit.pos v])
  M.pure (Lit.pos v).not

/-- First loop of `enforce_dominating`, `/repo/core/src/algs/pminimal.rs:597-600`. -/
def enforceDomEncode : Nat → List Nat → M P C Unit
  | _, [] => M.pure ()
  | i, c :: cs => do
    extendEncoding i c (c + 1)
    enforceDomEncode (i + 1) cs

/-- Iterator returned by `enforce_dominating`, `/repo/core/src/algs/pminimal.rs:602-605`. -/
def enforceDomLits : Nat → List Nat → M P C (List Lit)
  | _, [] => M.pure []
  | i, c :: cs => do
    let e ← encAt i
    let ls ← unwrap (e.enforceUb c)
    let rest ← enforceDomLits (i + 1) cs
    M.pure (ls ++ rest)

/-- `Kernel::enforce_dominating`, `/repo/core/src/algs/pminimal.rs:569-606`. -/
def enforceDominating (costs : List Nat) : M P C (List Lit) := do
  let s ← getS
  dbg (costs.length == s.io.stats.nObjs)
  enforceDomEncode 0 costs
  enforceDomLits 0 costs

/-- State of the loop of `p_minimization`: costs, solution and the literal that activates the last temporary block. -/
abbrev PMinState := List Nat × Assignment × Option Lit

/-- `if let Some((block_lit, ..)) = block_switch { add_unit(block_lit) }`, `/repo/core/src/algs/pminimal.rs:500`,
`:338`. -/
def commitBlock : Option Lit → M P C Unit
  | some l => addClause [l]
  | none => M.pure ()

/-- The blocking part of the loop of `p_minimization`, `/repo/core/src/algs/pminimal.rs:449-531`: new block switch and
assumptions. -/
def pminBlock (base : List Lit) (costs : List Nat) (bs : Option Lit) : M P C (Option Lit × List Lit) := do
  let s ← getS
  if s.k.opts.enumeration = .noEnum then do
    let c ← dominatedBlockClause costs
    addClause c
    M.pure (bs, base)
  else do
    commitBlock bs
    let b ← tmpBlockDominated costs
    M.pure (some b, base ++ [b])

/-- Body of the loop of `p_minimization`, `/repo/core/src/algs/pminimal.rs:434-563`. -/
def pminBody (base : List Lit) (st : PMinState) : M P C (PMinState ⊕ PMinState) := do
  let (bs, pre) ← pminBlock base st.1 st.2.2
  let dom ← enforceDominating st.1
  let res ← solveAssumps (pre ++ dom)
  if res = .unsat then do
    logRoutineEnd
    M.pure (.inr (st.1, st.2.1, bs))
  else do
    checkTermination
    let s ← getS
    let (costs, sol) ← getSolutionAndCosts (s.k.opts.solutionTightening.wanted .minimization)
    logCandidate costs .minimization
    checkTermination
    M.pure (.inl (costs, sol, bs))

/-- `Kernel::p_minimization`, `/repo/core/src/algs/pminimal.rs:416-565`. -/
def pMinimization (fuel : Nat) (costs : List Nat) (sol : Assignment) (base : List Lit) : M P C PMinState := do
  let s ← getS
  dbg (costs.length == s.io.stats.nObjs)
  logRoutineStart "p minimization"
  loopM (pminBody base) fuel (costs, sol, none)

/-- Common body of the loops of `alg_main` (`/repo/core/src/algs/pminimal.rs:264-341`) and `harvest`
(`/repo/core/src/algs/lowerbounding.rs:481-548`): the latter assumes the fence in the first query, the former nothing. -/
def harvestBody (fuel : Nat) (assumps base : List Lit) (_ : Unit) : M P C (Unit ⊕ Unit) := do
  let res ← solveAssumps assumps
  if res = .unsat then do
    logRoutineEnd
    M.pure (.inr ())
  else do
    checkTermination
    let s ← getS
    let (costs, sol) ← getSolutionAndCosts (s.k.opts.solutionTightening.wanted .outerLoop)
    logCandidate costs .outerLoop
    checkTermination
    let (costs, sol, bs) ← pMinimization fuel costs sol base
    let dom ← enforceDominating costs
    yieldSolutions fuel costs dom sol
    commitBlock bs
    M.pure (.inl ())

/-- `PMinimal::alg_main`, `/repo/core/src/algs/pminimal.rs:261-343`. -/
def pminMain (fuel : Nat) : M P C Unit := do
  let s ← getS
  dbg (s.encs.length == s.io.stats.nObjs)
  logRoutineStart "p-minimal"
  loopM (harvestBody fuel [] []) fuel ()

/-- `PMinimal::solve`, `/repo/core/src/algs/pminimal.rs:92-95`. -/
def pminSolve (fuel : Nat) (limits : Limits) : M P C Unit := do
  startSolving limits
  pminMain fuel

end Scuttle
