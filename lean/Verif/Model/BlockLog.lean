import Verif.Model.ProofLog

/-!
# Blocking clauses in the proof

Models the parts of `/repo/core/src/algs/pminimal.rs` that write the derivations of blocking clauses. As in
`Verif/Model/ProofLog.lean`, what the SAT solver writes while clauses are added is left out.
-/

namespace Scuttle

/-- An `ObjEncoding`, `/repo/core/src/types.rs:390-396`, while a blocking clause is built: what the proof code asks of it
once it is extended, whether it is `Constant`, and `encode_ub_change_cert`, `/repo/core/src/types.rs:541-592`, for the range
from the given value to the next one, which writes definitions, gives clauses to the solver and uses new variables. The second
component of the state is the next free variable, `/repo/core/src/types.rs:645-649`. -/
structure BlockEnc where
  view : EncView
  constant : Bool
  grow : Nat → PStuff × Nat → PStuff × Nat

/-- `dominated_block_clause`, `/repo/core/src/algs/pminimal.rs:616-663`, with a proof: the clause, the identifiers of the
reifications and the state; `none` is a panic or an error. `Clause::add` of rustsat adds a literal at the end. -/
def dominatedBlock (debug : Bool) : List BlockEnc → List PObj → List Nat → PStuff × Nat →
    Option (Clause × List Nat × (PStuff × Nat))
  | enc :: encs, o :: objs, cst :: costs, st =>
    if cst ≤ enc.view.offset then dominatedBlock debug encs objs costs st
    else if enc.constant then dominatedBlock debug encs objs costs st
    else do
      let st := enc.grow (cst - 1) st
      let assumps ← enc.view.enforceUb (cst - 1)
      match assumps with
      | [a] => do
        let (clause, ids, st) ← dominatedBlock debug encs objs costs st
        some (a :: clause, ids, st)
      | _ =>
        if debug && assumps.isEmpty then none
        else do
          let andLit : Lit := ⟨st.2, false⟩
          let (id, ps) ← certifyAssumpReification debug o.obj enc.view cst andLit assumps st.1
          let (clause, ids, st) ← dominatedBlock debug encs objs costs (ps, st.2 + 1)
          some (andLit :: clause, id :: ids, st)
  | _, _, _, st => some ([], [], st)

/-- The permanent blocking of P-minimization without enumeration, `/repo/core/src/algs/pminimal.rs:447-482`: the clause, the
identifiers of the cut and of the clause, and the state. -/
def permanentBlock (debug : Bool) (encs : List BlockEnc) (objs : List PObj) (costs : List Nat) (witness : Assignment)
    (maxEncVar : Nat) (st : PStuff × Nat) : Option (Clause × Nat × Nat × (PStuff × Nat)) := do
  let (clause, ids, st) ← dominatedBlock debug encs objs costs st
  let (cutId, ps) ← certifyPminCut debug (encs.map BlockEnc.view) objs costs witness maxEncVar st.1
  let (id, ps) := ps.push (.rup (clauseCon clause) ((ids ++ [cutId]).map CId.abs))
  some (clause, cutId, id, (ps.addCert clause id, st.2))

/-- `tmp_block_dominated`, `/repo/core/src/algs/pminimal.rs:668-689`: the assumption for the block, the identifier of the
clause, the identifiers of the reifications, and the state. The clause itself is given to the solver without an identifier. -/
def temporaryBlock (debug : Bool) (encs : List BlockEnc) (objs : List PObj) (costs : List Nat) (st : PStuff × Nat) :
    Option (Lit × Nat × List Nat × (PStuff × Nat)) := do
  let (clause, ids, st) ← dominatedBlock debug encs objs costs st
  let blockLit : Lit := ⟨st.2, false⟩
  let (id, ps) := st.1.push (.red (clauseCon (clause ++ [blockLit])) [⟨.solver blockLit.var, false⟩] [])
  some (blockLit.not, id, ids, (ps, st.2 + 1))

/-- The permanent blocking of a candidate that was blocked temporarily, `/repo/core/src/algs/pminimal.rs:300-342`,
`:486-523`, `/repo/core/src/algs/lowerbounding.rs:508-548`. -/
def makePermanent (debug : Bool) (encs : List EncView) (objs : List PObj) (costs : List Nat) (witness : Assignment)
    (maxEncVar : Nat) (blockLit : Lit) (reifiedCut : Nat) (reifIds : List Nat) (ps : PStuff) : Option (Nat × PStuff) := do
  let (cutId, ps) ← certifyPminCut debug encs objs costs witness maxEncVar ps
  let (id, ps) := ps.push (.red (clauseCon [blockLit]) []
    [⟨.con (.abs reifiedCut), [.rup (.clause []) (.last 2 :: .last 1 :: .abs cutId :: reifIds.map CId.abs)]⟩])
  some (id, ps.addCert [blockLit] id)

end Scuttle
