import Verif.Model.CoreGuided
import Verif.Model.ProofLog

/-!
# Proof logging of core-guided search

Models what `/repo/core/src/algs/coreguided.rs` writes to the proof. The search itself is modelled in
`Verif.Model.CoreGuided`; here the cores are given, and a run is a sequence of cores, of reformulations of cores, and of
lines that others (the solver and the totalizer database) write to the proof in between. The lines that define the outputs
of a totalizer are taken to be written before the core or reformulation that needs them.
-/

namespace Scuttle

/-- What proof logging needs of a totalizer database: by root, the number of outputs and the literals at the leafs, by root
and value the output, and the ids of its two definitions (`get_semantics` and `ensure_semantics` with offset 0). -/
structure TotView where
  len : Nat → Nat
  leafs : Nat → List Lit
  out : Nat → Nat → Lit
  sems : Nat → Nat → Option SemDefs

/-- `ReformData` with its proof id, `/repo/core/src/algs/coreguided.rs:28-33`. -/
structure LogRef where
  root : Nat
  oidx : Nat
  totWeight : Nat
  proofId : Nat
  deriving DecidableEq, Repr

/-- `CoreData` with its proof id, `/repo/core/src/algs/coreguided.rs:218-223`; the literals of the core stand for the
nodes in `core_cons`. -/
structure LogCore where
  lits : List Lit
  weight : Nat
  proofId : Nat
  deriving DecidableEq, Repr

/-- State of `oll` with proof logging, `/repo/core/src/algs/coreguided.rs:258-272`. The inactive literals are a map to
weights; in the unweighted variant the weight is one, and zero for active literals. -/
structure OllLog where
  proof : Pf AnyVar
  inactives : List (Lit × Nat)
  refs : List (Lit × LogRef)
  offset : Nat
  reformIds : List (Nat × Nat)
  cores : List LogCore

/-- `Inactives::relax`, `/repo/core/src/algs/coreguided.rs:107-124`; `none` is a panic. -/
def relaxMap (l : Lit) (w : Nat) (m : List (Lit × Nat)) : Option (List (Lit × Nat) × Nat) :=
  match mapGet l m with
  | some lw => if lw < w then none else some (m.map fun p => if p.1 = l then (p.1, p.2 - w) else p, lw - w)
  | none => none

/-- The line that brings in the output with value `n + 1`, `/repo/core/src/algs/coreguided.rs:516-520` (`n` is
`oidx + 1`) and `:324-337` (`n` is `val - 1`). -/
def extendOps (ops : Ops) (n onlyIf : Nat) : Ops := .div (.add (.mul ops n) (.id (.abs onlyIf))) (n + 1)

/-- Body of the loop over a core, `/repo/core/src/algs/coreguided.rs:471-543`; `none` is a panic. -/
def logRelaxLit (T : TotView) (cw : Nat) (st : OllLog) (olit : Lit) : Option OllLog := do
  let (i, w) ← relaxMap olit cw st.inactives
  match mapGet olit st.refs with
  | none => some { st with inactives := i }
  | some rd =>
    if w > 0 then some { st with inactives := i }
    else if rd.oidx + 1 ≥ T.len rd.root then
      some { st with
        inactives := i, refs := mapRemove olit st.refs, reformIds := st.reformIds ++ [(rd.proofId, rd.totWeight)] }
    else do
      let new := T.out rd.root (rd.oidx + 2)
      let sem ← T.sems rd.root (rd.oidx + 2)
      let only ← sem.onlyIfDef
      let (id, proof) := st.proof.push (.pol (extendOps (.id (.abs rd.proofId)) (rd.oidx + 1) only))
      some { st with
        proof := proof.write (.del [rd.proofId] [])
        inactives := mapInsert new rd.totWeight i
        refs := mapInsert new { rd with oidx := rd.oidx + 1, proofId := id } (mapRemove olit st.refs) }

/-- Loop over a core, `/repo/core/src/algs/coreguided.rs:471-543`. -/
def logRelaxLoop (T : TotView) (cw : Nat) : List Lit → OllLog → Option OllLog
  | [], st => some st
  | l :: ls, st => do
    let st ← logRelaxLit T cw st l
    logRelaxLoop T cw ls st

/-- Handles a core after minimization and trimming, `/repo/core/src/algs/coreguided.rs:454-558`. -/
def logCore (T : TotView) (core : List Lit) (coreId : Nat) (st : OllLog) : Option OllLog := do
  let cw ← coreWeight (.weighted st.inactives) core
  let st ← logRelaxLoop T cw core { st with offset := st.offset + cw }
  if core.length > 1 then some { st with cores := st.cores ++ [⟨core, cw, coreId⟩] }
  else some { st with reformIds := st.reformIds ++ [(coreId, cw)] }

/-- Reformulates the next core without core exhaustion, `/repo/core/src/algs/coreguided.rs:379-414`, `:574-592`; `root` is
the result of `merge`. -/
def logReform (T : TotView) (root : Nat) (st : OllLog) : Option OllLog :=
  match st.cores with
  | [] => some st
  | c :: cs => do
    let olit := T.out root 2
    let sem ← T.sems root 2
    let only ← sem.onlyIfDef
    let (id, proof) := st.proof.push (.pol (.div (.add (.id (.abs c.proofId)) (.id (.abs only))) 2))
    if 1 < T.len root then
      some { st with
        proof := proof, cores := cs
        inactives := mapInsert olit c.weight st.inactives
        refs := mapInsert olit ⟨root, 1, c.weight, id⟩ st.refs }
    else some { st with proof := proof, cores := cs, reformIds := st.reformIds ++ [(id, c.weight)] }

/-- The operations that bring in all further outputs, `/repo/core/src/algs/coreguided.rs:321-338`; `none` is a panic. -/
def exactOps (T : TotView) (root : Nat) : Nat → Nat → Ops → Option Ops
  | 0, _, ops => some ops
  | n + 1, val, ops => do
    let sem ← T.sems root val
    let only ← sem.onlyIfDef
    exactOps T root n (val + 1) (extendOps ops (val - 1) only)

/-- The loop that makes reformulations exact, `/repo/core/src/algs/coreguided.rs:312-346`. -/
def logExact (T : TotView) : List (Lit × LogRef) → Pf AnyVar → Option (List (Lit × LogRef) × Pf AnyVar)
  | [], pf => some ([], pf)
  | (l, rd) :: rs, pf =>
    if rd.oidx + 1 ≥ T.len rd.root then do
      let (rs, pf) ← logExact T rs pf
      some ((l, rd) :: rs, pf)
    else do
      let ops ← exactOps T rd.root (T.len rd.root - (rd.oidx + 1)) (rd.oidx + 2) (.id (.abs rd.proofId))
      let (id, pf) := pf.push (.pol ops)
      let (rs, pf) ← logExact T rs (pf.write (.del [rd.proofId] []))
      some ((l, { rd with proofId := id }) :: rs, pf)

/-- The sum of reformulations, `/repo/core/src/algs/coreguided.rs:347-356`. -/
def sumOps (ids : List (Nat × Nat)) : Ops :=
  ids.foldl (fun seq p => seq.plus (.mul (.id (.abs p.1)) p.2)) .empty

/-- The end of `oll` with `exact_reformulation`, `/repo/core/src/algs/coreguided.rs:310-371`: the id of the reformulation of
the objective. -/
def logFinal (T : TotView) (st : OllLog) : Option (Option Nat × OllLog) := do
  let (refs, proof) ← logExact T st.refs st.proof
  let ops := sumOps (st.reformIds ++ refs.map fun p => (p.2.proofId, p.2.totWeight))
  if ops = .empty then some (none, { st with refs := refs, proof := proof })
  else
    let (id, proof) := proof.push (.pol ops)
    let proof := if st.reformIds.isEmpty then proof else proof.write (.del (st.reformIds.map Prod.fst) [])
    some (some id, { st with refs := refs, proof := proof })

/-! ## Core exhaustion -/

/-- The operations that `exhaust_core` builds up, `/repo/core/src/algs/coreguided.rs:603-634`: for each bound, the id of the
`if_def` of the next output and, if the solver found that the core cannot have this bound only, the id of that core. -/
def exhaustOps : List (Nat × Option Nat) → Nat → Ops → Ops
  | [], _, ops => ops
  | (ifDef, core) :: rest, bound, ops =>
    let ops := .div (.add (.mul ops bound) (.id (.abs ifDef))) (bound + 1)
    match core with
    | none => ops
    | some id => exhaustOps rest (bound + 1) (.add ops (.id (.abs id)))

/-! ## Runs -/

/-- What happens to the proof during `oll`. -/
inductive OllEvent where
  | core (lits : List Lit) (id : Nat)
  | reform (root : Nat)
  | others (lines : List (ProofStep AnyVar))

/-- Writes several lines. -/
def Pf.writeAll {V : Type} [DecidableEq V] (p : Pf V) (ss : List (ProofStep V)) : Pf V := ss.foldl Pf.write p

/-- One event. -/
def OllLog.event (T : TotView) (st : OllLog) : OllEvent → Option OllLog
  | .core lits id => logCore T lits id st
  | .reform root => logReform T root st
  | .others lines => some { st with proof := st.proof.writeAll lines }

/-- A sequence of events. -/
def OllLog.run (T : TotView) : List OllEvent → OllLog → Option OllLog
  | [], st => some st
  | e :: es, st => do
    let st ← st.event T e
    OllLog.run T es st

/-- The state at the start, `/repo/core/src/algs/coreguided.rs:197-216`, `:258-272`. -/
def OllLog.start (obj : Objective) (proof : Pf AnyVar) : OllLog := ⟨proof, obj.iter, [], 0, [], []⟩

end Scuttle
