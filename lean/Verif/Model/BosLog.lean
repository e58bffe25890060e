import Verif.Model.LinsuLog

/-!
# The proof of BiOptSat

Models what `bioptsat` in `/repo/core/src/algs/bioptsat.rs` writes to the proof once a point is found. As in
`Verif/Model/ProofLog.lean`, what the SAT solver, `linsu` and the extension of encodings write in between is left out: the views of the
encodings, the identifiers of lower bounds and the state of the proof are arguments.
-/

namespace Scuttle

/-- The loop that derives implications between outputs of the increasing objective,
`/repo/core/src/algs/bioptsat.rs:529-548`; `none` is a panic. -/
def bosImpls (debug : Bool) (enc : EncView) (firstIfDef : Option Nat) (incCost : Nat) : Nat → List Lit → PStuff →
    Option (List Nat × PStuff)
  | _, [], ps => some ([], ps)
  | val, a :: as, ps => do
    let (olit, sems) ← enc.details val
    if debug && decide (a ≠ olit.not) then none
    else
      let ifDef ← firstIfDef
      let only ← sems.onlyIfDef
      let (implication, ps) := ps.push (.pol (implOps ifDef only (val - incCost + 2)))
      let (ids, ps) ← bosImpls debug enc firstIfDef incCost (enc.nextHigher val) as ps
      some (implication :: ids, ps)

/-- The loop over the assumptions if the encoding of the increasing objective has a buffer,
`/repo/core/src/algs/bioptsat.rs:577-602`; `next` is `next_higher` of the other encoding; `none` is a panic. -/
def bosImplsBuffered (debug : Bool) (enc : EncView) (next : Nat → Nat) (ideal : Axm AnyVar) (def₁ : Nat) :
    Nat → List Lit → PStuff → Option (List Nat × PStuff)
  | _, [], ps => some ([], ps)
  | val, a :: as, ps => do
    let (olit, sems) ← enc.details val
    let clause : LbCon AnyVar := .clause [(toAxm a).not, ideal]
    if a.var < olit.var then
      let (implication, ps) := ps.push (.rup clause [.abs def₁])
      let (ids, ps) ← bosImplsBuffered debug enc next ideal def₁ val as ps
      some (implication :: ids, ps)
    else if debug && decide (olit.not ≠ a) then none
    else
      let only ← sems.onlyIfDef
      let (tmp, ps) := ps.push (.pol (.add (.id (.abs def₁)) (.id (.abs only))))
      let (implication, ps) := ps.push (.rup clause [.abs tmp])
      let ps := ps.write (.del [tmp] [])
      let (ids, ps) ← bosImplsBuffered debug enc next ideal def₁ (next val) as ps
      some (implication :: ids, ps)

/-- The sum of a constraint and implications, `/repo/core/src/algs/bioptsat.rs:551-558`, `:605-612`. -/
def shortenOps (lb : Nat) (ids : List Nat) : Ops :=
  .saturate (ids.foldl (fun s i => .add s (.id (.abs i))) (.id (.abs lb)))

/-- The lower bound on the decreasing objective is made to mention only one output of the increasing one,
`/repo/core/src/algs/bioptsat.rs:515-619`; `none` is a panic. -/
def bosShorten (debug : Bool) (enc₀ enc₁ : EncView) (obj₁ : Objective) (incCost decCost : Nat) (assumps : List Lit)
    (decLb : Option Nat) (ps : PStuff) : Option (Option Nat × PStuff) := do
  let (first, sems) ← enc₀.details (enc₀.nextHigher incCost)
  if enc₀.bufferEmpty then
    match assumps with
    | [] => some (decLb, ps)
    | [a] => if debug && decide (a ≠ first.not) then none else some (decLb, ps)
    | a :: b :: as =>
      let rest := if a = first.not then b :: as else a :: b :: as
      let (ids, ps) ← bosImpls debug enc₀ sems.ifDef incCost (enc₀.nextHigher (enc₀.nextHigher incCost)) rest ps
      let lb ← decLb
      let (short, ps) := ps.push (.pol (shortenOps lb ids))
      some (some short, ps.write (.del ids []))
  else
    let ((ideal, def₁, _), ps) := getObjBound decCost obj₁ ps
    let (ids, ps) ← bosImplsBuffered debug enc₀ enc₁.nextHigher ideal def₁ (incCost + 1) assumps ps
    if debug && ids.isEmpty then none
    else
      let lb ← decLb
      let (short, ps) := ps.push (.pol (shortenOps lb ids))
      some (some short, ps.write (.del ids []))

/-- The cut, `/repo/core/src/algs/bioptsat.rs:454-483`, `:626-653`: the P-minimal cut without the increasing objective; `none`
is a panic. -/
def bosCutId (enc₀ : EncView) (incCost incLb pminCut : Nat) (incLbId lastCut lastDecLb : Option Nat) (ps : PStuff) :
    Option (Nat × PStuff) :=
  if incCost ≤ enc₀.offset then some (pminCut, ps)
  else if incCost = incLb then do
    let cut ← lastCut
    let lb ← lastDecLb
    let (lbId, ps) := ps.push (.pol (.add (.id (.abs cut)) (.id (.abs lb))))
    some (ps.push (.pol (.add (.id (.abs lbId)) (.id (.abs pminCut)))))
  else do
    let lbId ← incLbId
    some (ps.push (.pol (.add (.id (.abs lbId)) (.id (.abs pminCut)))))

/-- The loop that gives the solver the outputs after the first one, `/repo/core/src/algs/bioptsat.rs:675-707`; `none` is a
panic. -/
def bosAddOutputs (debug : Bool) (enc : EncView) (firstIfDef : Option Nat) (decCost cutId : Nat) : Nat → List Lit → PStuff →
    Option PStuff
  | _, [], ps => some ps
  | val, a :: as, ps => do
    let val := enc.nextHigher val
    let (olit, sems) ← enc.details val
    if debug && decide (olit.not ≠ a) then none
    else
      let ifDef ← firstIfDef
      let only ← sems.onlyIfDef
      let (implication, ps) := ps.push (.pol (implOps ifDef only (val - decCost + 1)))
      let (id, ps) := ps.push (.pol (.add (.id (.abs cutId)) (.id (.abs implication))))
      let ps := (ps.addCert [a] id).write (.del [implication] [])
      bosAddOutputs debug enc firstIfDef decCost cutId val as ps

/-- The loop that gives the solver literals and outputs if the encoding of the decreasing objective has a buffer,
`/repo/core/src/algs/bioptsat.rs:715-753`; `none` is a panic. -/
def bosAddBuffered (debug : Bool) (enc : EncView) (ideal : Axm AnyVar) (def₁ cutId : Nat) : Nat → List Lit → PStuff → Option PStuff
  | _, [], ps => some ps
  | val, a :: as, ps => do
    let clause : LbCon AnyVar := .clause [ideal, toAxm a]
    let (olit, sems) ← enc.details val
    let (implication, val, ps) ←
      if a.var < olit.var then
        let (implication, ps) := ps.push (.rup clause [.abs def₁])
        some (implication, val, ps)
      else if debug && decide (olit.not ≠ a) then none
      else do
        let only ← sems.onlyIfDef
        let (tmp, ps) := ps.push (.pol (.add (.id (.abs def₁)) (.id (.abs only))))
        let (implication, ps) := ps.push (.rup clause [.abs tmp])
        some (implication, enc.nextHigher val, ps.write (.del [tmp] []))
    let (id, ps) := ps.push (.pol (.add (.id (.abs cutId)) (.id (.abs implication))))
    let ps := (ps.addCert [a] id).write (.del [implication] [])
    bosAddBuffered debug enc ideal def₁ cutId val as ps

/-- The cut is given to the solver, `/repo/core/src/algs/bioptsat.rs:666-754`; `none` is a panic. -/
def bosAddCut (debug : Bool) (enc : EncView) (obj : Objective) (decCost cutId : Nat) (ps : PStuff) : Option PStuff := do
  let assumps ← enc.enforceUb (decCost - 1)
  if enc.bufferEmpty then
    let (first, sems) ← enc.details decCost
    match assumps with
    | [] => none
    | a :: as =>
      if debug && decide (first.not ≠ a) then none
      else bosAddOutputs debug enc sems.ifDef decCost cutId decCost as (ps.addCert [a] cutId)
  else
    let ((ideal, def₁, _), ps) := getObjBound decCost obj ps
    bosAddBuffered debug enc ideal def₁ cutId decCost assumps ps

/-- The proof for a point after which the search goes on, `/repo/core/src/algs/bioptsat.rs:501-754`, `:763`: the cut and the lower
bound that are kept for the next point; `none` is a panic. -/
def bosLog (debug : Bool) (enc₀ enc₁ : EncView) (o₀ o₁ : PObj) (incCost decCost incLb : Nat) (witness : Assignment) (maxEncVar : Nat)
    (assumps : List Lit) (incLbId decLbId lastCut lastDecLb : Option Nat) (ps : PStuff) : Option (Nat × Option Nat × PStuff) := do
  let (pminCut, ps) ← certifyPminCut debug [enc₀, enc₁] [o₀, o₁] [incCost, decCost] witness maxEncVar ps
  let (decLb, ps) ← bosShorten debug enc₀ enc₁ o₁.obj incCost decCost assumps decLbId ps
  let (cutId, ps) ← bosCutId enc₀ incCost incLb pminCut incLbId lastCut lastDecLb ps
  let ps ← bosAddCut debug enc₁ o₁.obj decCost cutId ps
  some (cutId, decLb, ps)

/-- The proof for the last point, if the decreasing objective is at its lower bound, `/repo/core/src/algs/bioptsat.rs:436-497`: the
constraint that the conclusion of the proof names; `none` is a panic. -/
def bosFinal (debug : Bool) (enc₀ enc₁ : EncView) (o₀ o₁ : PObj) (incCost decCost incLb : Nat) (witness : Assignment)
    (maxEncVar : Nat) (incLbId lastCut lastDecLb : Option Nat) (ps : PStuff) : Option (Nat × PStuff) := do
  let (pminCut, ps) ← certifyPminCut debug [enc₀, enc₁] [o₀, o₁] [incCost, decCost] witness maxEncVar ps
  bosCutId enc₀ incCost incLb pminCut incLbId lastCut lastDecLb ps

end Scuttle
