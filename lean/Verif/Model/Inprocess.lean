import Verif.Model.CoreBoost

/-!
# Inprocessing

Models `Kernel::inprocess`, `/repo/core/src/algs/coreboosting.rs:226-431`, and what the three algorithms do with its result
(feature `maxpre`), for builds without the feature `sol-tightening`: the field `inpro` is then set but never read, as
`reconstruct` is only called in `/repo/core/src/algs.rs:548-553`.

MaxPre is a library outside of `/repo` and a parameter here.
-/

namespace Scuttle

variable {P C D : Type} [UbEnc P] [UbEnc C] [TotDb D] [MergeEnc P C D]

/-- `reset_encoded` of `rustsat::encodings::totdb::Db`, called in `/repo/core/src/algs/coreboosting.rs:275`: the variables of
the outputs are kept, but their clauses count as not added. -/
class InproDb (D : Type) where
  resetEncoded : D → D

/-- `NodeCon::limited`, `/repo/core/src/algs/coreboosting.rs:415`. -/
def NodeCon.limited (id off len w : Nat) : NodeCon := ⟨id, off, w, some len⟩

/-- Soft clauses with their weights, `/repo/core/src/algs/coreboosting.rs:276`. -/
abbrev Softs := List (Clause × Nat)

/-- What MaxPre does, `/repo/core/src/algs/coreboosting.rs:321-323` and `:331-332`: `run` is `MaxPre::new`, `preprocess` and
`prepro_instance`, that is clauses and for each objective soft clauses and an offset; `nClauses` and `nFixed` are
`n_prepro_clauses` and `n_prepro_fixed_lits`. The techniques are part of the function. -/
structure MaxPre where
  run : List Clause → List Softs → List Clause × List (Softs × Int)
  nClauses : List Clause → List Softs → Nat
  nFixed : List Clause → List Softs → Nat

/-! ## The instance for MaxPre -/

/-- What is built up while the instance for MaxPre is collected: clauses, database of the objective, next free variable,
the outputs of the totalizers and the soft clauses, `/repo/core/src/algs/coreboosting.rs:268-276`. -/
structure Coll (D : Type) where
  cnf : List Clause
  db : D
  next : Nat
  outs : List (Lit × ReformData)
  softs : Softs

/-- One output, `/repo/core/src/algs/coreboosting.rs:286-306`. -/
def collectOut [TotDb D] (rd : ReformData) (w : Nat) (c : Coll D) (idx : Nat) : Coll D :=
  let r := TotDb.define c.db rd.root idx c.next
  { cnf := c.cnf ++ r.2.2.1
    db := r.1
    next := r.2.2.2
    outs := if idx = rd.oidx then c.outs else mapInsert r.2.1 { rd with oidx := idx } c.outs
    softs := c.softs ++ [([r.2.1.not], if idx = rd.oidx then w else rd.totWeight)] }

/-- One literal of the reformulated objective, `/repo/core/src/algs/coreboosting.rs:277-311`. -/
def collectLit [TotDb D] (refs : List (Lit × ReformData)) (c : Coll D) (p : Lit × Nat) : Coll D :=
  match mapGet p.1 refs with
  | some rd => (List.range' rd.oidx (TotDb.len c.db rd.root - rd.oidx)).foldl (collectOut rd p.2) c
  | none => { c with softs := c.softs ++ [([p.1.not], p.2)] }

/-- One objective, `/repo/core/src/algs/coreboosting.rs:274-313`. -/
def collectObj [TotDb D] [InproDb D] (cnf : List Clause) (next : Nat) (p : Reform × D) : Coll D :=
  p.1.inactives.iter.foldl (collectLit p.1.refs) ⟨cnf, InproDb.resetEncoded p.2, next, p.1.refs, []⟩

/-- All objectives, `/repo/core/src/algs/coreboosting.rs:268-313`: the clauses, the next free variable, and for each objective
what was collected. -/
def collectAll [TotDb D] [InproDb D] (cnf : List Clause) (next : Nat) :
    List (Reform × D) → List Clause × Nat × List (Coll D)
  | [] => (cnf, next, [])
  | p :: ps =>
    let c := collectObj cnf next p
    let r := collectAll c.cnf c.next ps
    (r.1, r.2.1, c :: r.2.2)

/-- Sum of the weights, `/repo/core/src/algs/coreboosting.rs:319`, `:327`. -/
def softRange (s : Softs) : Nat := (s.map Prod.snd).sum

/-! ## Encodings of the result -/

/-- What is built up while the soft clauses of an objective are read: connections, outputs used of each totalizer with
its weight, database, `max_leaf_weight`, `/repo/core/src/algs/coreboosting.rs:357-368`. The hash map is an association
list. -/
structure SoftSt (D : Type) where
  cons : List NodeCon
  tots : List (Nat × List Bool × Nat)
  db : D
  maxLeaf : Nat

/-- One soft clause, `/repo/core/src/algs/coreboosting.rs:369-397`. -/
def readSoft (outs : List (Lit × ReformData)) (st : SoftSt D) (p : Clause × Nat) : M P C (SoftSt D) := do
  dbg (p.1.length == 1)
  let l ← unwrap p.1.head?
  let olit := l.not
  let st := { st with maxLeaf := max p.2 st.maxLeaf }
  match mapGet olit outs with
  | some rd =>
    if p.2 < rd.totWeight then M.pure { st with cons := st.cons ++ [NodeCon.single rd.root (rd.oidx + 1) p.2] }
    else match mapGet rd.root st.tots with
      | some (data, w) => do
        let b ← unwrap data[rd.oidx]?
        dbg (!b)
        M.pure { st with tots := mapInsert rd.root (data.set rd.oidx true, w) st.tots }
      | none => do
        let data := List.replicate (TotDb.len st.db rd.root) false
        let _ ← unwrap data[rd.oidx]?
        M.pure { st with tots := mapInsert rd.root (data.set rd.oidx true, rd.totWeight) st.tots }
  | none =>
    let r := TotDb.leaf st.db olit
    M.pure { st with db := r.1, cons := st.cons ++ [NodeCon.weighted r.2 p.2] }

/-- All soft clauses of an objective, `/repo/core/src/algs/coreboosting.rs:369-397`. -/
def readSofts (outs : List (Lit × ReformData)) : Softs → SoftSt D → M P C (SoftSt D)
  | [], st => M.pure st
  | p :: ps, st => do
    let st ← readSoft outs st p
    readSofts outs ps st

/-- Loop over the outputs of a totalizer, `/repo/core/src/algs/coreboosting.rs:401-413`, from index `i` on: `offset` and
`len`; an `offset` of `none` is `usize::MAX`. The result `none` is the panic for a gap. -/
def runOf : Nat → List Bool → Option Nat → Option Nat → Option (Option Nat × Option Nat)
  | _, [], offset, len => some (offset, len)
  | i, active :: data, offset, len =>
    let offset' := if active && offset.all (i < ·) then some i else offset
    let len' := if !active && offset'.any (· < i) then some (i - offset'.getD 0) else len
    if active && len'.isSome then none else runOf (i + 1) data offset' len'

/-- Connection for a totalizer, `/repo/core/src/algs/coreboosting.rs:400-419`. There is at least one output in use. -/
def totCon (p : Nat × List Bool × Nat) : M P C NodeCon := do
  let r ← unwrap (runOf 0 p.2.1 none none)
  M.pure (match r.2 with
    | some len => NodeCon.limited p.1 (r.1.getD usizeMax) len p.2.2
    | none => NodeCon.offsetWeighted p.1 (r.1.getD usizeMax) p.2.2)

/-- Connections for all totalizers, `/repo/core/src/algs/coreboosting.rs:400-419`. -/
def totCons : List (Nat × List Bool × Nat) → List NodeCon → M P C (List NodeCon)
  | [], cons => M.pure cons
  | p :: ps, cons => do
    let c ← totCon p
    totCons ps (cons ++ [c])

/-- An objective without soft clauses becomes constant, `/repo/core/src/algs/coreboosting.rs:359-367`. -/
def setConstant (i : Nat) (reform : Reform) (offset : Int) : M P C Unit := do
  let s ← getS
  let o ← unwrap s.k.objs[i]?
  modifyS fun s => { s with k := { s.k with
    objs := s.k.objs.set i (.constant (o.offset + reform.offset + offset) i reform.offset) } }

/-- The encoding for one objective, `/repo/core/src/algs/coreboosting.rs:356-358` and `:368-427`. A negative offset fails a debug
assertion; without assertions the additions wrap around. -/
def inproEnc (softs : Softs) (offset : Int) (reform : Reform) (outs : List (Lit × ReformData)) (d : D) :
    M P C (ObjEnc P C) := do
  let st ← readSofts outs softs ⟨[], [], d, 0⟩
  logRoutineStart "merge encodings"
  let cons ← totCons st.tots st.cons
  checkTermination
  let e ← mergeCons cons st.db ((reform.offset : Int) + offset).toNat st.maxLeaf
  logRoutineEnd
  M.pure e

/-- Loop over the objectives, `/repo/core/src/algs/coreboosting.rs:351-428`, from index `i` on. -/
def inproEncs : Nat → List (Softs × Int) → List (Reform × Coll D) → M P C (List (ObjEnc P C))
  | i, p :: ps, r :: rs => do
    dbg (decide (0 ≤ p.2))
    if p.1 = [] then do
      setConstant i r.1 p.2
      inproEncs (i + 1) ps rs
    else do
      let e ← inproEnc p.1 p.2 r.1 r.2.outs r.2.db
      let es ← inproEncs (i + 1) ps rs
      M.pure (e :: es)
  | _, _, _ => M.pure []

/-- `Kernel::inprocess`, `/repo/core/src/algs/coreboosting.rs:237-430`. -/
def inprocess [InproDb D] (mp : MaxPre) (reforms : List (Reform × D)) : M P C (List (ObjEnc P C)) := do
  let s ← getS
  if s.k.opts.storeCnf then do
    modifyS fun s => { s with k := { s.k with db := [], ostate := .input, conflLimited := false } }
    let cnf ← unwrap s.k.origCnf
    let c := collectAll cnf s.k.vm.nextVar reforms
    let softs := c.2.2.map Coll.softs
    modifyS fun s => { s with k := { s.k with vm := { s.k.vm with nextVar := c.2.1 } } }
    logRoutineStart "inprocessing"
    let r := mp.run c.1 softs
    logRoutineEnd
    logEvent (.inprocessing (c.1.length + (softs.map List.length).sum) (mp.nClauses c.1 softs) (mp.nFixed c.1 softs)
      (List.zipWith (fun a b => (softRange a, softRange b.1)) softs r.2 ++
        (softs.drop r.2.length).map fun a => (softRange a, 0)))
    checkTermination
    let s ← getS
    let _ ← unwrap s.k.vm.maxVar
    modifyS fun s => { s with k := { s.k with db := r.1 } }
    checkTermination
    inproEncs 0 r.2 ((reforms.map Prod.fst).zip c.2.2)
  else stop .error

/-- What the algorithms do with the encodings: `/repo/core/src/algs/bioptsat.rs:300-302` for BiOptSat,
`/repo/core/src/algs/pminimal.rs:371` and `/repo/core/src/algs/lowerbounding.rs:360` for the others. -/
def setInproEncs (alg : Alg) (encs : List (ObjEnc P C)) : M P C Unit :=
  match alg with
  | .biOptSat => do
    let e1 ← unwrap encs.getLast?
    let e0 ← unwrap encs.dropLast.getLast?
    modifyS fun s => { s with encs := [e0, e1] }
  | _ => modifyS fun s => { s with encs := encs }

/-- `CoreBoost::core_boost` with `AfterCbOptions::Inpro`: `/repo/core/src/algs/pminimal.rs:353-374`,
`/repo/core/src/algs/lowerbounding.rs:342-363`, `/repo/core/src/algs/bioptsat.rs:282-305`. -/
def coreBoostInpro (D : Type) [TotDb D] [MergeEnc P C D] [InproDb D] (alg : Alg) (mp : MaxPre) (fuel : Nat) : M P C Bool := do
  let s ← getS
  if s.io.stats.nSolveCalls ≠ 0 then stop .error
  else do
    match ← kernelCoreBoost D fuel with
    | none => M.pure false
    | some res => do
      checkTermination
      let encs ← inprocess mp res
      setInproEncs alg encs
      checkTermination
      M.pure true

end Scuttle
