import Verif.Model.Tracer

/-!
# Proof logging

Models `/repo/core/src/algs/proofs.rs` and the parts of `/repo/core/src/algs/coreguided.rs`,
`/repo/core/src/algs/pminimal.rs` and `/repo/core/src/algs/bioptsat.rs` that write proofs. Failing to write, comments and
the feature `verbose-proofs` are left out. Numbers are unbounded, so the conversions to `isize` never fail.

What the SAT solver writes to the proof while clauses are added is left out here; it does not remove or change constraints
that are there already (`Verif/Props/Tracer.lean`).
-/

namespace Scuttle

/-! ## The order -/

/-- `pigeons::OrderVar`, used in `/repo/core/src/algs/proofs.rs:148-165`: copies of variables for three assignments. -/
inductive OrderVar where
  | u (v : Nat)
  | v (v : Nat)
  | w (v : Nat)
  deriving DecidableEq, Repr

/-- The constraint of one objective in `objectives_as_order`, `/repo/core/src/algs/proofs.rs:151-166`, between two copies
of the variables. -/
def orderCon (obj : Objective) (x y : Nat → OrderVar) : LbCon OrderVar :=
  { lits := obj.iter.flatMap fun p =>
      [(-(p.2 : Int) * obj.unitWeight, ⟨x p.1.var, p.1.neg⟩), ((p.2 : Int) * obj.unitWeight, ⟨y p.1.var, p.1.neg⟩)]
    bound := 0 }

/-- The derivation for transitivity in `objectives_as_order`, `/repo/core/src/algs/proofs.rs:172-176`. -/
def transOps (n idx : Nat) : Ops := .add (.add (.id (.abs (idx + 1))) (.id (.abs (n + idx + 1)))) (.id (.last 1))

/-- `objectives_as_order`, `/repo/core/src/algs/proofs.rs:148-180`: definition and derivation for each objective. -/
def objectivesAsOrder (objs : List Objective) : List (LbCon OrderVar × Ops) :=
  objs.mapIdx fun idx obj => (orderCon obj .u .v, transOps objs.length idx)

/-! ## State -/

/-- `Value`, `/repo/core/src/algs/proofs.rs:121-125`. -/
inductive ProofVal where
  | identical (l : Lit)
  | objAtLeast (idx value : Nat)
  deriving DecidableEq, Repr

/-- `ProofStuff`, `/repo/core/src/algs/proofs.rs:112-119`, together with the proof and the clauses given to
`CadicalCertCollector`. -/
structure PStuff where
  proof : Pf AnyVar
  valueMap : List (Axm AnyVar × ProofVal)
  bounds : List ((Nat × Nat) × (Axm AnyVar × Nat × Nat))
  added : List (Clause × Nat)

namespace PStuff

/-- A line that gives a constraint. -/
def push (ps : PStuff) (s : ProofStep AnyVar) : Nat × PStuff :=
  let r := ps.proof.push s
  (r.1, { ps with proof := r.2 })

/-- Another line. -/
def write (ps : PStuff) (s : ProofStep AnyVar) : PStuff := { ps with proof := ps.proof.write s }

/-- `add_cert_clause`, `/repo/cadical-veripb-tracer/src/lib.rs:312-320`. -/
def addCert (ps : PStuff) (c : Clause) (id : Nat) : PStuff := { ps with added := ps.added ++ [(c, id)] }

end PStuff

/-- An objective with its `reform_id`, `/repo/core/src/types.rs:224-246`. -/
structure PObj where
  obj : Objective
  reformId : Option Nat
  deriving DecidableEq, Repr

/-- `SemDefs` of rustsat, used in `/repo/core/src/types.rs:596`: ids of the two halves of the definition of an output. -/
structure SemDefs where
  ifDef : Option Nat
  onlyIfDef : Option Nat
  deriving DecidableEq, Repr

/-- What the proof code asks of an `ObjEncoding`, `/repo/core/src/types.rs:595-635`, `:449-455`: `is_buffer_empty`,
`n_output_lits`, `offset`, `output_proof_details` (`none` is a panic), `next_higher`, `enforce_ub` (`none` is an error) and
`extend_assignment`. -/
structure EncView where
  bufferEmpty : Bool
  nOutputs : Nat
  offset : Nat
  details : Nat → Option (Lit × SemDefs)
  nextHigher : Nat → Nat
  enforceUb : Nat → Option (List Lit)
  extend : Assignment → List Lit

/-! ## Bounds on objectives -/

/-- The sum of the weights of an objective, `/repo/core/src/algs/proofs.rs:746`. -/
def Objective.total (obj : Objective) : Nat := (obj.iter.map Prod.snd).sum

/-- The first definition in `get_obj_bound_constraint`, `/repo/core/src/algs/proofs.rs:746-758`. -/
def boundDef₁ (obj : Objective) (value : Nat) (r : AnyVar) : LbCon AnyVar :=
  let bound := (obj.total : Int) + 1 - value
  { lits := (obj.iter.map fun p => ((p.2 : Int), toAxm p.1.not)) ++ [(bound, ⟨r, false⟩)]
    bound := bound }

/-- The second definition in `get_obj_bound_constraint`, `/repo/core/src/algs/proofs.rs:763-775`. -/
def boundDef₂ (obj : Objective) (value : Nat) (r : AnyVar) : LbCon AnyVar :=
  { lits := (obj.iter.map fun p => ((p.2 : Int), toAxm p.1)) ++ [((value : Int), ⟨r, true⟩)]
    bound := value }

/-- `get_obj_bound_constraint`, `/repo/core/src/algs/proofs.rs:718-783`. -/
def getObjBound (value : Nat) (obj : Objective) (ps : PStuff) : (Axm AnyVar × Nat × Nat) × PStuff :=
  match mapGet (obj.idx, value) ps.bounds with
  | some d => (d, ps)
  | none =>
    let r := AnyVar.proof ps.proof.nProofVars
    let ps := { ps with
      proof := { ps.proof with nProofVars := ps.proof.nProofVars + 1 }
      valueMap := ps.valueMap ++ [((⟨r, false⟩ : Axm AnyVar), ProofVal.objAtLeast obj.idx value)] }
    let (def₁, ps) := ps.push (.red (boundDef₁ obj value r) [⟨r, false⟩] [])
    let (def₂, ps) := ps.push (.red (boundDef₂ obj value r) [⟨r, true⟩] [])
    ((⟨r, false⟩, def₁, def₂),
      { ps with bounds := mapInsert (obj.idx, value) (⟨r, false⟩, def₁, def₂) ps.bounds })

/-! ## The P-minimal cut -/

/-- One entry of `cut_data` in `certify_pmin_cut`, `/repo/core/src/algs/proofs.rs:215-250`; `none` is a panic. -/
def cutDatum (debug : Bool) (enc : EncView) (o : PObj) (cst : Nat) (ps : PStuff) :
    Option ((Option (Axm AnyVar) × Option Nat) × PStuff) :=
  if cst ≤ o.obj.lowerBound then
    if debug && !(cst == 0 || o.reformId.isSome) then none else some ((none, o.reformId), ps)
  else if o.obj.nLits = 1 then
    match o.obj.iter with
    | [] => none
    | p :: _ => some ((some (toAxm p.1.not), none), ps)
  else if enc.nOutputs = 1 then do
    let ls ← enc.enforceUb enc.offset
    let l ← ls.head?
    some ((some (toAxm l), none), ps)
  else if enc.bufferEmpty then do
    let (olit, defs) ← enc.details cst
    if debug && defs.onlyIfDef.isNone then none else some ((some (toAxm olit).not, defs.onlyIfDef), ps)
  else
    let ((lit, _, d), ps) := getObjBound cst o.obj ps
    some ((some lit.not, some d), ps)

/-- `cut_data` in `certify_pmin_cut`, `/repo/core/src/algs/proofs.rs:210-251`; `none` is a panic. -/
def cutData (debug : Bool) : List EncView → List PObj → List Nat → PStuff →
    Option (List (Option (Axm AnyVar) × Option Nat) × PStuff)
  | enc :: encs, o :: objs, cst :: costs, ps => do
    let (d, ps) ← cutDatum debug enc o cst ps
    let (ds, ps) ← cutData debug encs objs costs ps
    some (d :: ds, ps)
  | _, _, _, ps => some ([], ps)

/-- The loop over `value_map` in `certify_pmin_cut`, `/repo/core/src/algs/proofs.rs:273-307`: the assignment and the literals
over proof variables; `none` is a panic. -/
def fixValues (costs : List Nat) : List (Axm AnyVar × ProofVal) → Assignment → List (Axm AnyVar) →
    Option (Assignment × List (Axm AnyVar))
  | [], a, ps => some (a, ps)
  | (this, .identical that) :: m, a, ps =>
    match a.litValue that with
    | .tt =>
      match this.var with
      | .proof _ => fixValues costs m a (ps ++ [this])
      | .solver v => fixValues costs m (a.assignLit ⟨v, this.neg⟩) ps
    | .ff =>
      match this.var with
      | .proof _ => fixValues costs m a (ps ++ [this.not])
      | .solver v => fixValues costs m (a.assignLit ⟨v, !this.neg⟩) ps
    | .dc => none
  | (this, .objAtLeast i value) :: m, a, ps =>
    match costs[i]? with
    | none => none
    | some c =>
      if c ≥ value then
        match this.var with
        | .proof _ => fixValues costs m a (ps ++ [this])
        | .solver v => fixValues costs m (a.assignLit ⟨v, this.neg⟩) ps
      else
        match this.var with
        | .proof _ => fixValues costs m a (ps ++ [this.not])
        | .solver v => fixValues costs m (a.assignLit ⟨v, !this.neg⟩) ps

/-- `fixed_witness` in `certify_pmin_cut`, `/repo/core/src/algs/proofs.rs:256-312`; `none` is a panic. -/
def fixedWitness (encs : List EncView) (costs : List Nat) (witness : Assignment) (m : List (Axm AnyVar × ProofVal)) :
    Option (List (Axm AnyVar)) := do
  let (a, ps) ← fixValues costs m (.ofLits (witness.toLits ++ encs.flatMap fun enc => enc.extend witness)) []
  some (a.toLits.map toAxm ++ ps)

/-- The constraint that maps dominated solutions in `certify_pmin_cut`, `/repo/core/src/algs/proofs.rs:317-330`. -/
def mapDomCon (ω cut : List (Axm AnyVar)) : LbCon AnyVar :=
  { lits := (ω.map fun l => (1, l)) ++ cut.map fun l => ((ω.length : Int) + 1, l)
    bound := ω.length }

/-- The subproof for one objective in `certify_pmin_cut`, `/repo/core/src/algs/proofs.rs:336-387`. -/
def cutGoal (negationId idx : Nat) (dat : Option (Axm AnyVar) × Option Nat) (o : PObj) (cst : Nat) :
    Option (Goal AnyVar) :=
  match dat with
  | (none, some reformId) =>
    some ⟨.specific (idx + 2), [.pol (.add (.id (.abs reformId)) (.id (.last 1)))]⟩
  | (some lit, some d) =>
    let conf := Ops.add (.mul (.id (.last 1)) (cst - o.obj.lowerBound)) (.id (.abs d))
    let conf := match o.reformId with
      | some r => Ops.add conf (.id (.abs r))
      | none => conf
    let conf := Ops.add (.mul conf o.obj.unitWeight) (.id (.last 2))
    some ⟨.specific (idx + 2), [.rup (.clause [lit.not]) [.abs negationId], .pol conf]⟩
  | (_, none) => none

/-- The subproofs in `certify_pmin_cut`, `/repo/core/src/algs/proofs.rs:332-388`, for the objectives from `idx` on. -/
def cutGoals (negationId : Nat) : Nat → List (Option (Axm AnyVar) × Option Nat) → List PObj → List Nat → List (Goal AnyVar)
  | idx, d :: ds, o :: objs, cst :: costs =>
    (cutGoal negationId idx d o cst).toList ++ cutGoals negationId (idx + 1) ds objs costs
  | _, _, _, _ => []

/-- `certify_pmin_cut`, `/repo/core/src/algs/proofs.rs:182-421`; `none` is a panic. -/
def certifyPminCut (debug : Bool) (encs : List EncView) (objs : List PObj) (costs : List Nat) (witness : Assignment)
    (maxEncVar : Nat) (ps : PStuff) : Option (Nat × PStuff) := do
  let (ds, ps) ← cutData debug encs objs costs ps
  let cut := ds.filterMap Prod.fst
  let ω ← fixedWitness encs costs witness ps.valueMap
  let goals := cutGoals ps.proof.nextId 0 ds objs costs
  let (mapDom, ps) := ps.push (.red (mapDomCon ω cut) ω goals)
  let (exclude, ps) := ps.push (.solx ((witness.truncate maxEncVar).toLits.map toAxm) ω)
  let (cutId, ps) := ps.push (.rup (.clause cut) [.abs mapDom, .abs exclude])
  let ps := ps.write (.core [cutId])
  let ps := ps.write (.del [exclude, mapDom] [⟨.specific 1, [.rup (.clause []) [.last 1, .abs cutId]]⟩])
  some (cutId, ps)

/-! ## Assumptions that stand for a bound -/

/-- The derivation that a higher output implies a lower one, `/repo/core/src/algs/proofs.rs:478-483`, `:626-631`,
`/repo/core/src/algs/bioptsat.rs:535-540`, `:685-690`. -/
def implOps (ifDef onlyIfDef divisor : Nat) : Ops :=
  .saturate (.div (.add (.id (.abs ifDef)) (.id (.abs onlyIfDef))) divisor)

/-- The loop over further assumptions in `certify_assump_reification` with an empty buffer,
`/repo/core/src/algs/proofs.rs:471-502`; `none` is a panic. -/
def reifyFurther (debug : Bool) (enc : EncView) (reif : Lit) (value ifDef firstIfDef : Nat) :
    Nat → List Lit → PStuff → Option PStuff
  | _, [], ps => some ps
  | val, a :: as, ps => do
    let val := enc.nextHigher val
    let (olit, sems) ← enc.details val
    if debug && decide (olit.not ≠ a) then none
    else
      let only ← sems.onlyIfDef
      let (implication, ps) := ps.push (.pol (implOps firstIfDef only (val - value + 1)))
      let clause := [reif.not, a]
      let (id, ps) := ps.push (.rup (clauseCon clause) [.abs implication, .abs ifDef])
      let ps := ps.addCert clause id
      let ps := ps.write (.del [implication] [])
      reifyFurther debug enc reif value ifDef firstIfDef val as ps

/-- The loop over the assumptions in `certify_assump_reification` with a buffer, `/repo/core/src/algs/proofs.rs:527-557`;
`none` is a panic. -/
def reifyBuffered (debug : Bool) (enc : EncView) (reif : Lit) (ifDef def₁ : Nat) :
    Nat → List Lit → PStuff → Option PStuff
  | _, [], ps => some ps
  | val, a :: as, ps => do
    let clause := [reif.not, a]
    let (olit, sems) ← enc.details val
    if a.var < olit.var then
      let (id, ps) := ps.push (.rup (clauseCon clause) [.abs ifDef, .abs def₁])
      reifyBuffered debug enc reif ifDef def₁ val as (ps.addCert clause id)
    else if debug && decide (olit.not ≠ a) then none
    else
      let only ← sems.onlyIfDef
      let (tmp, ps) := ps.push (.pol (.add (.id (.abs def₁)) (.id (.abs only))))
      let (id, ps) := ps.push (.rup (clauseCon clause) [.abs ifDef, .abs tmp])
      let ps := ps.write (.del [tmp] [])
      reifyBuffered debug enc reif ifDef def₁ (enc.nextHigher val) as (ps.addCert clause id)

/-- `certify_assump_reification`, `/repo/core/src/algs/proofs.rs:429-560`; `none` is a panic. `lit_impl_lit(a, b)` of
rustsat is the clause `¬a ∨ b`. In the first case `first_sems.if_def` is only unwrapped in the loop. -/
def certifyAssumpReification (debug : Bool) (obj : Objective) (enc : EncView) (value : Nat) (reif : Lit)
    (assumps : List Lit) (ps : PStuff) : Option (Nat × PStuff) :=
  if enc.bufferEmpty then
    match assumps with
    | [] => none
    | a :: as => do
      let clause := [reif.not, a]
      let (ifDef, ps) := ps.push (.red (clauseCon clause) [⟨.solver reif.var, true⟩] [])
      let (onlyIfDef, ps) := ps.push (.red (clauseCon [a.not, reif]) [⟨.solver reif.var, false⟩] [])
      let ps := { ps with valueMap := ps.valueMap ++ [(toAxm reif, ProofVal.identical a)] }
      let ps := ps.addCert clause ifDef
      let (firstOlit, firstSems) ← enc.details value
      if debug && decide (firstOlit.not ≠ a) then none
      else if as.isEmpty then some (onlyIfDef, ps)
      else
        let firstIfDef ← firstSems.ifDef
        let ps ← reifyFurther debug enc reif value ifDef firstIfDef value as ps
        some (onlyIfDef, ps)
  else do
    let ((ideal, def₁, _), ps) := getObjBound value obj ps
    let (ifDef, ps) := ps.push (.red (.clause [toAxm reif.not, ideal.not]) [⟨.solver reif.var, true⟩] [])
    let (onlyIfDef, ps) := ps.push (.red (.clause [toAxm reif, ideal]) [⟨.solver reif.var, false⟩] [])
    let ps := { ps with valueMap := ps.valueMap ++ [(toAxm reif.not, ProofVal.objAtLeast obj.idx value)] }
    let ps ← reifyBuffered debug enc reif ifDef def₁ value assumps ps
    some (onlyIfDef, ps)

end Scuttle
