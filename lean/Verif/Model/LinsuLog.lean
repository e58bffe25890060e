import Verif.Model.ProofLog

/-!
# Lower bounds in the proof

Models `linsu_certify_lower_bound` in `/repo/core/src/algs/proofs.rs`. As in `Verif/Model/ProofLog.lean`, what the SAT solver
writes is left out; the identifier of the core is an argument.
-/

namespace Scuttle

/-- The loop over the base assumptions, `/repo/core/src/algs/proofs.rs:590-595`, from a position in the core on; `none` is an
index out of bounds. -/
def coreStart (core : List Lit) : List Lit → Nat → Option Nat
  | [], start => some start
  | ba :: bas, start => do
    let c ← core[start]?
    coreStart core bas (if c = ba.not then start + 1 else start)

/-- The loops that look for the output of a literal, `/repo/core/src/algs/proofs.rs:621-625`, `:680-684`; `none` is a panic,
or that the output is not among the given number of values. -/
def findOutput (enc : EncView) (found : Lit → Bool) : Nat → Nat → Option (Nat × Lit × SemDefs)
  | fuel, val => do
    let (olit, sems) ← enc.details val
    if found olit then some (val, olit, sems)
    else
      match fuel with
      | 0 => none
      | fuel + 1 => findOutput enc found fuel (enc.nextHigher val)

/-- The loop over the literals of the core with an empty buffer, `/repo/core/src/algs/proofs.rs:618-639`: the identifiers of
the implications. -/
def linsuImpls (enc : EncView) (fuel cost : Nat) (firstIfDef : Option Nat) : Nat → List Lit → PStuff → Option (List Nat × PStuff)
  | _, [], ps => some ([], ps)
  | val, clit :: cs, ps => do
    let (val, _, sems) ← findOutput enc (fun olit => clit == olit) fuel val
    let ifDef ← firstIfDef
    let only ← sems.onlyIfDef
    let (implication, ps) := ps.push (.pol (implOps ifDef only (val - cost + 1)))
    let (ids, ps) ← linsuImpls enc fuel cost firstIfDef (enc.nextHigher val) cs ps
    some (implication :: ids, ps)

/-- The loop over the literals of the core with a buffer, `/repo/core/src/algs/proofs.rs:672-697`. -/
def linsuImplsBuffered (enc : EncView) (fuel : Nat) (ideal : Axm AnyVar) (def₁ : Nat) :
    Nat → List Lit → PStuff → Option (List Nat × PStuff)
  | _, [], ps => some ([], ps)
  | val, clit :: cs, ps => do
    let clause : LbCon AnyVar := .clause [toAxm clit.not, ideal]
    let (olit, _) ← enc.details val
    if clit.var < olit.var then
      let (implication, ps) := ps.push (.rup clause [.abs def₁])
      let (ids, ps) ← linsuImplsBuffered enc fuel ideal def₁ val cs ps
      some (implication :: ids, ps)
    else
      let (val, _, sems) ← findOutput enc (fun olit => clit.var == olit.var) fuel val
      let only ← sems.onlyIfDef
      let (tmp, ps) := ps.push (.pol (.add (.id (.abs def₁)) (.id (.abs only))))
      let (implication, ps) := ps.push (.rup clause [.abs tmp])
      let ps := ps.write (.del [tmp] [])
      let (ids, ps) ← linsuImplsBuffered enc fuel ideal def₁ (enc.nextHigher val) cs ps
      some (implication :: ids, ps)

/-- `linsu_certify_lower_bound`, `/repo/core/src/algs/proofs.rs:562-716`; `none` is a panic. `cube_impl_lit` of rustsat is the
clause of the negated literals of the cube and the literal. -/
def linsuCertify (debug : Bool) (fuel : Nat) (bas : List Lit) (cost : Nat) (core : List Lit) (obj : Objective) (enc : EncView)
    (coreId : Nat) (ps : PStuff) : Option (Nat × PStuff) := do
  let start ← coreStart core bas 0
  if enc.bufferEmpty then
    let (firstOlit, firstSems) ← enc.details cost
    if core.length = 1 then
      if debug && decide (core.head? ≠ some firstOlit) then none else some (coreId, ps)
    else
      let c ← core[start]?
      let start := if c = firstOlit then start + 1 else start
      let (ids, ps) ← linsuImpls enc fuel cost firstSems.ifDef cost (core.drop start) ps
      if !ids.isEmpty || !bas.isEmpty then
        let (id, ps) := ps.push (.rup (clauseCon (bas.map Lit.not ++ [firstOlit])) ((ids ++ [coreId]).map CId.abs))
        let ps := if ids.isEmpty then ps else ps.write (.del ids [])
        some (id, ps)
      else some (coreId, ps)
  else
    let ((ideal, def₁, _), ps) := getObjBound cost obj ps
    let (ids, ps) ← linsuImplsBuffered enc fuel ideal def₁ cost (core.drop start) ps
    let (id, ps) := ps.push (.rup (.clause (bas.map (fun l => toAxm l.not) ++ [ideal])) ((ids ++ [coreId]).map CId.abs))
    let ps := ps.write (.del ids [])
    some (id, ps)

end Scuttle
