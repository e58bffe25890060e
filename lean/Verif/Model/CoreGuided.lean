import Verif.Model.Kernel
import Verif.Model.TotDb

/-!
# Core-guided search

Models `/repo/core/src/algs/coreguided.rs` without proof logging, with the default feature `limit-conflicts`.
-/

namespace Scuttle

variable {P C D : Type}

/-! ## The reformulated objective -/

/-- `ReformData`, `/repo/core/src/algs/coreguided.rs:28-33`, without the proof id. -/
structure ReformData where
  root : Nat
  oidx : Nat
  totWeight : Nat
  deriving DecidableEq, Repr

/-- `Inactives`, `/repo/core/src/algs/coreguided.rs:35-44`. The hash map is an association list, the hash set a list. -/
inductive Inactives where
  | weighted (map : List (Lit × Nat))
  | unweighted (lits active : List Lit)
  | constant
  deriving DecidableEq, Repr

namespace Inactives

/-- `Inactives::iter` and `InactIter::next`, `/repo/core/src/algs/coreguided.rs:47-49`, `:176-182`. -/
def iter : Inactives → List (Lit × Nat)
  | .weighted m => m
  | .unweighted lits _ => lits.map fun l => (l, 1)
  | .constant => []

/-- `Inactives::assumps`, `/repo/core/src/algs/coreguided.rs:51-53`. -/
def assumps (i : Inactives) : List Lit := i.iter.map fun p => p.1.not

/-- `Inactives::len`, `/repo/core/src/algs/coreguided.rs:55-61`. -/
def len : Inactives → Nat
  | .weighted m => m.length
  | .unweighted lits _ => lits.length
  | .constant => 0

/-- `Inactives::cleanup`, `/repo/core/src/algs/coreguided.rs:83-92`. -/
def cleanup : Inactives → Inactives
  | .weighted m => .weighted (m.filter fun p => p.2 > 0)
  | .unweighted lits active => .unweighted (lits.filter fun l => !active.contains l) []
  | .constant => .constant

/-- `Inactives::final_cleanup`, `/repo/core/src/algs/coreguided.rs:71-81`. -/
def finalCleanup (i : Inactives) : Inactives :=
  match i.cleanup with
  | .weighted [] => .constant
  | .unweighted [] _ => .constant
  | i => i

/-- `Inactives::insert`, `/repo/core/src/algs/coreguided.rs:94-105`. -/
def insert (i : Inactives) (l : Lit) (w : Nat) : M P C Inactives :=
  match i with
  | .weighted m => M.pure (.weighted (mapInsert l w m))
  | .unweighted lits active => do
    dbg (w == 1)
    M.pure (.unweighted (lits ++ [l]) active)
  | .constant => stop .panic

/-- `Inactives::relax`, `/repo/core/src/algs/coreguided.rs:107-124`: the new state and the remaining weight. The weight
underflows (here a panic) if it is less than that of the core. -/
def relax (i : Inactives) (l : Lit) (w : Nat) : M P C (Inactives × Nat) :=
  match i with
  | .weighted m =>
    match mapGet l m with
    | some lw =>
      if lw < w then stop .panic
      else M.pure (.weighted (m.map fun p => if p.1 = l then (p.1, p.2 - w) else p), lw - w)
    | none => stop .panic
  | .unweighted lits active => do
    dbg (w == 1)
    M.pure (.unweighted lits (l :: active), 0)
  | .constant => stop .panic

end Inactives

/-- `OllReformulation`, `/repo/core/src/algs/coreguided.rs:186-195`, without the proof id. -/
structure Reform where
  inactives : Inactives
  refs : List (Lit × ReformData)
  offset : Nat
  deriving DecidableEq, Repr

/-- `From<&Objective> for OllReformulation`, `/repo/core/src/algs/coreguided.rs:197-216`. -/
def Reform.ofObjective : Objective → Reform
  | .weighted _ lits _ _ => ⟨.weighted lits, [], 0⟩
  | .unweighted _ _ lits _ _ => ⟨.unweighted lits [], [], 0⟩
  | .constant .. => ⟨.constant, [], 0⟩

/-- `HashMap::remove`. -/
def mapRemove {α β} [DecidableEq α] (k : α) (m : List (α × β)) : List (α × β) := m.filter fun p => p.1 ≠ k

/-- `CoreData`, `/repo/core/src/algs/coreguided.rs:218-223`, without the proof id. -/
structure CoreData where
  idx : Nat
  len : Nat
  weight : Nat
  deriving DecidableEq, Repr

/-- State of the loop of `oll`: reformulation, totalizer database, assumptions after the base assumptions,
`unreform_cores` and `core_cons`. -/
structure OllState (D : Type) where
  reform : Reform
  db : D
  rest : List Lit
  cores : List CoreData
  cons : List NodeCon

/-! ## Helpers -/

/-- Addition of `usize`; overflow panics in a debug build (`none`) and wraps around in a release build. -/
def addUsize (debug : Bool) (a b : Nat) : Option Nat :=
  if a + b ≤ usizeMax then some (a + b) else if debug then none else some ((a + b) % (usizeMax + 1))

/-- Order of literals in `rustsat`: by variable, positive first. Used by `sort_unstable` in
`/repo/core/src/algs/coreguided.rs:267`. -/
def litLt (a b : Lit) : Bool := a.var < b.var || (a.var == b.var && !a.neg && b.neg)

/-- Insertion into a sorted list. -/
def insertLit (l : Lit) : List Lit → List Lit
  | [] => [l]
  | a :: as => if litLt a l then a :: insertLit l as else l :: a :: as

/-- `assumps.sort_unstable()`, `/repo/core/src/algs/coreguided.rs:267`. -/
def sortLits : List Lit → List Lit
  | [] => []
  | l :: ls => insertLit l (sortLits ls)

/-- Insertion into a list sorted by decreasing weight. -/
def insertDesc (p : Lit × Nat) : List (Lit × Nat) → List (Lit × Nat)
  | [] => [p]
  | q :: qs => if q.2 > p.2 then q :: insertDesc p qs else p :: q :: qs

/-- Sorting by decreasing weight, `/repo/core/src/algs/coreguided.rs:278-279`. -/
def sortDesc : List (Lit × Nat) → List (Lit × Nat)
  | [] => []
  | p :: ps => insertDesc p (sortDesc ps)

/-- Weights of the literals assumed, `inacts[&!l]` in `/repo/core/src/algs/coreguided.rs:279`; `none` is the panic for a
missing key. -/
def withWeights (m : List (Lit × Nat)) : List Lit → Option (List (Lit × Nat))
  | [] => some []
  | a :: as => do
    let w ← mapGet a.not m
    let r ← withWeights m as
    some ((a, w) :: r)

/-- Removes trailing entries of weight zero, `/repo/core/src/algs/coreguided.rs:281-285`. -/
def popZeros (l : List (Lit × Nat)) : List (Lit × Nat) := (l.reverse.dropWhile fun p => p.2 == 0).reverse

/-- Start of an iteration of `oll`, `/repo/core/src/algs/coreguided.rs:274-293`: cleaned up literals and assumptions.
The order among literals of the same weight is not modelled, weights are assumed to fit into `isize`. -/
def ollPrepare (i : Inactives) (rest : List Lit) : M P C (Inactives × List Lit) :=
  match i with
  | .weighted m => do
    let ws ← unwrap (withWeights m rest)
    M.pure (.weighted m, (popZeros (sortDesc ws)).map Prod.fst)
  | .unweighted lits active =>
    let i := Inactives.cleanup (.unweighted lits active)
    M.pure (i, i.assumps)
  | .constant => stop .panic

/-- Removal of base assumptions from a core, `/repo/core/src/algs/coreguided.rs:420-438`, `:691-709`, `:751-766`: a
pointer into the base assumptions moves along with the core. -/
def dropBase : List Lit → List Lit → List Lit
  | _, [] => []
  | base, l :: core =>
    let base' := base.dropWhile fun a => litLt a l.not
    if base'.head? = some l.not then dropBase base' core else l :: dropBase base' core

/-- The filter is only applied if there are base assumptions, `/repo/core/src/algs/coreguided.rs:420`. -/
def filterBase (base core : List Lit) : List Lit := if base.isEmpty then core else dropBase base core

/-- `oracle.limit_conflicts`, `/repo/core/src/algs/coreguided.rs:620`, `:680`. -/
def setConflLimit (b : Bool) : M P C Unit := modifyS fun s => { s with k := { s.k with conflLimited := b } }

section Search

variable [TotDb D]

/-- `Kernel::build_output`, `/repo/core/src/algs/coreguided.rs:786-821`. -/
def buildOutput (d : D) (root oidx : Nat) : M P C (Lit × D) := do
  let s ← getS
  let r := TotDb.define d root oidx s.k.vm.nextVar
  modifyS fun s =>
    { s with k := { s.k with
        db := s.k.db ++ r.2.2.1
        vm := { s.k.vm with nextVar := r.2.2.2 }
        ostate := if r.2.2.1.isEmpty then s.k.ostate else .input } }
  M.pure (r.2.1, r.1)

/-- Loop of `exhaust_core`, `/repo/core/src/algs/coreguided.rs:604-636`; the first argument is `core_len - bound`. -/
def exhaustLoop (root : Nat) (base : List Lit) : Nat → Nat → Lit → D → M P C (Lit × Nat × D)
  | 0, bound, olit, d => M.pure (olit, bound, d)
  | g + 1, bound, _, d => do
    let (olit, d) ← buildOutput d root bound
    setConflLimit true
    let res ← solveAssumps (base ++ [olit.not])
    if res ≠ .unsat then M.pure (olit, bound, d)
    else exhaustLoop root base g (bound + 1) olit d

/-- `Kernel::exhaust_core`, `/repo/core/src/algs/coreguided.rs:565-656`. -/
def exhaustCore (root : Nat) (base : List Lit) (d : D) : M P C (Lit × Nat × D) := do
  let s ← getS
  if !s.k.opts.coreExhaustion then do
    let (olit, d) ← buildOutput d root 1
    M.pure (olit, 1, d)
  else do
    logRoutineStart "core-exhaustion"
    let coreLen := TotDb.len d root
    dbg (decide (coreLen > 1))
    let r ← exhaustLoop root base (coreLen - 1) 1 (Lit.pos 0) d
    setConflLimit false
    logRoutineEnd
    M.pure r

/-- Loop of `minimize_core`, `/repo/core/src/algs/coreguided.rs:681-719`. -/
def minimizeLoop (base : List Lit) : List Lit → List Lit → M P C (List Lit)
  | [], core => M.pure core
  | x :: xs, core => do
    let res ← solveAssumps (base ++ (core.filter (· ≠ x)).map Lit.not)
    if res = .unsat then do
      let core ← oracleCore
      minimizeLoop base xs (filterBase base core)
    else minimizeLoop base xs core

/-- `Kernel::minimize_core`, `/repo/core/src/algs/coreguided.rs:659-725`. -/
def minimizeCore (core base : List Lit) : M P C (List Lit) := do
  let s ← getS
  if !s.k.opts.coreMinimization then M.pure core
  else if core.length ≤ 1 then M.pure core
  else do
    logRoutineStart "core-minimization"
    setConflLimit true
    let core ← minimizeLoop base core.reverse core
    setConflLimit false
    logRoutineEnd
    M.pure core

/-- Body of the loop of `trim_core`, `/repo/core/src/algs/coreguided.rs:745-778`. -/
def trimBody (base core : List Lit) : M P C (List Lit ⊕ List Lit) :=
  if core.length > 1 then do
    let res ← solveAssumps (base ++ core.map Lit.not)
    dbg (res == .unsat)
    let new ← oracleCore
    let new := filterBase base new
    if new.length = core.length then M.pure (.inr new) else M.pure (.inl new)
  else M.pure (.inr core)

/-- `Kernel::trim_core`, `/repo/core/src/algs/coreguided.rs:728-783`. -/
def trimCore (fuel : Nat) (core base : List Lit) : M P C (List Lit) := do
  let s ← getS
  if !s.k.opts.coreTrimming then M.pure core
  else if core.length ≤ 1 then M.pure core
  else do
    logRoutineStart "core-trimming"
    let core ← loopM (trimBody base) fuel core
    logRoutineEnd
    M.pure core

/-- Weight of a core, `/repo/core/src/algs/coreguided.rs:457-463`; `none` is the panic for a missing key. -/
def coreWeight (i : Inactives) (core : List Lit) : Option Nat :=
  match i with
  | .weighted m => core.foldl (fun w l => do
      let w ← w
      let lw ← mapGet l m
      some (min w lw)) (some usizeMax)
  | .unweighted .. => some 1
  | .constant => none

/-- State of the loop over a core, `/repo/core/src/algs/coreguided.rs:471-543`. -/
structure RelaxState (D : Type) where
  inactives : Inactives
  refs : List (Lit × ReformData)
  db : D
  rest : List Lit
  cons : List NodeCon

/-- Body of the loop over a core, `/repo/core/src/algs/coreguided.rs:471-543`. -/
def relaxLit (cw : Nat) (st : RelaxState D) (olit : Lit) : M P C (RelaxState D) := do
  let (i, w) ← st.inactives.relax olit cw
  match mapGet olit st.refs with
  | some rd =>
    let cons := st.cons ++ [NodeCon.single rd.root (rd.oidx + 1) 1]
    if w > 0 then M.pure { st with inactives := i, cons := cons }
    else
      let refs := mapRemove olit st.refs
      if rd.oidx + 1 ≥ TotDb.len st.db rd.root then M.pure { st with inactives := i, cons := cons, refs := refs }
      else do
        let (new, db) ← buildOutput st.db rd.root (rd.oidx + 1)
        let i ← i.insert new rd.totWeight
        M.pure {
          inactives := i, db := db, cons := cons, rest := st.rest ++ [new.not]
          refs := mapInsert new { rd with oidx := rd.oidx + 1 } refs }
  | none =>
    let (db, id) := TotDb.leaf st.db olit
    M.pure { st with inactives := i, db := db, cons := st.cons ++ [NodeCon.full id] }

/-- Loop over a core, `/repo/core/src/algs/coreguided.rs:471-543`. -/
def relaxLoop (cw : Nat) : List Lit → RelaxState D → M P C (RelaxState D)
  | [], st => M.pure st
  | l :: ls, st => do
    let st ← relaxLit cw st l
    relaxLoop cw ls st

/-- Handles a core, `/repo/core/src/algs/coreguided.rs:454-558`. -/
def handleCore (fuel : Nat) (base : List Lit) (st : OllState D) (core : List Lit) : M P C (OllState D) := do
  let origLen := core.length
  let core ← minimizeCore core base
  let core ← trimCore fuel core base
  let cw ← unwrap (coreWeight st.reform.inactives core)
  let d ← isDebug
  let offset ← unwrap (addUsize d st.reform.offset cw)
  logEvent (.core cw origLen core.length)
  let r ← relaxLoop cw core ⟨st.reform.inactives, st.reform.refs, st.db, st.rest, []⟩
  dbg (core.length == r.cons.length)
  let st' := { st with reform := ⟨r.inactives, r.refs, offset⟩, db := r.db, rest := r.rest }
  if r.cons.length > 1 then
    M.pure { st' with cores := st.cores ++ [⟨st.cons.length, r.cons.length, cw⟩], cons := st.cons ++ r.cons }
  else M.pure st'

/-- Reformulates one core, `/repo/core/src/algs/coreguided.rs:379-414`. -/
def reformCore (base : List Lit) (st : OllState D) (c : CoreData) : M P C (OllState D) := do
  let slice ← unwrap (if c.idx + c.len ≤ st.cons.length then some ((st.cons.drop c.idx).take c.len) else none)
  let (db, root) := TotDb.merge st.db slice
  let (olit, oidx, db) ← exhaustCore root base db
  let offset ← (if oidx > 1 then do
      let d ← isDebug
      let offset ← unwrap (addUsize d st.reform.offset ((oidx - 1) * c.weight))
      logEvent (.coreExhaustion oidx c.weight)
      M.pure offset
    else M.pure st.reform.offset)
  if oidx < TotDb.len db root then do
    let i ← st.reform.inactives.insert olit c.weight
    M.pure { st with
      reform := ⟨i, mapInsert olit ⟨root, oidx, c.weight⟩ st.reform.refs, offset⟩
      db := db, rest := st.rest ++ [olit.not] }
  else M.pure { st with reform := { st.reform with offset := offset }, db := db }

/-- Reformulates all cores, `/repo/core/src/algs/coreguided.rs:379-415`. -/
def reformCores (base : List Lit) : List CoreData → OllState D → M P C (OllState D)
  | [], st => M.pure { st with cores := [], cons := [] }
  | c :: cs, st => do
    let st ← reformCore base st c
    reformCores base cs st

/-- Reserves the variables of all outputs, `/repo/core/src/algs/coreguided.rs:302-308`. -/
def reserveOutputs : List (Lit × ReformData) → D → M P C D
  | [], d => M.pure d
  | p :: ps, d => do
    let s ← getS
    let r := TotDb.reserve d p.2.root (p.2.oidx + 1) s.k.vm.nextVar
    modifyS fun s => { s with k := { s.k with vm := { s.k.vm with nextVar := r.2 } } }
    reserveOutputs ps r.1

/-- Result of `oll`: the solution if there is one, and what it has left in `reform` and `tot_db`. -/
abbrev OllResult (D : Type) := Option Assignment × Reform × D

/-- Body of the loop of `oll`, `/repo/core/src/algs/coreguided.rs:274-561`; `sorted` are the sorted base assumptions. -/
def ollBody (fuel : Nat) (sorted base : List Lit) (exactRef : Bool) (st : OllState D) :
    M P C (OllState D ⊕ OllResult D) := do
  let (i, rest) ← ollPrepare st.reform.inactives st.rest
  let st := { st with reform := { st.reform with inactives := i }, rest := rest }
  match ← solveAssumps (sorted ++ rest) with
  | .interrupted => stop .panic
  | .sat =>
    if st.cores.isEmpty then do
      let sol ← oracleSolution
      let db ← if exactRef then reserveOutputs st.reform.refs st.db else M.pure st.db
      logRoutineEnd
      M.pure (.inr (some sol, { st.reform with inactives := st.reform.inactives.finalCleanup }, db))
    else do
      let st ← reformCores base st.cores st
      M.pure (.inl st)
  | .unsat => do
    let core ← oracleCore
    let core := filterBase sorted core
    if core.isEmpty then do
      logRoutineEnd
      M.pure (.inr (none, st.reform, st.db))
    else do
      let st ← handleCore fuel base st core
      M.pure (.inl st)

/-- `Kernel::oll`, `/repo/core/src/algs/coreguided.rs:241-562`. -/
def oll (fuel : Nat) (reform : Reform) (base : List Lit) (d : D) (exactRef : Bool) : M P C (OllResult D) :=
  if reform.inactives = .constant then do
    match ← solveAssumps base with
    | .sat => do
      let sol ← oracleSolution
      M.pure (some sol, reform, d)
    | .unsat => M.pure (none, reform, d)
    | .interrupted => stop .panic
  else do
    logRoutineStart "oll"
    loopM (ollBody fuel (sortLits base) base exactRef) fuel ⟨reform, d, reform.inactives.assumps, [], []⟩

end Search

end Scuttle
