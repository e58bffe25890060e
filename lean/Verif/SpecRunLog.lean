import Verif.SpecBlock

/-!
# What a whole proof rests on

Specification for the lines of a whole run: what is expected of the encodings of objectives, of the SAT solver and of the
solutions it finds.
-/

namespace Scuttle.Spec

/-- The values below `n` of the variables for an assignment. `ext` adds the values that the variables of the encodings are
meant to have. -/
def valuesBelow (ext : Asg → Asg) (a : Asg) (n : Nat) : Assignment := (List.range n).map fun v => TV.ofBool (ext a v)

/-- An assignment without variables of the proof. -/
def onSolver (a : Asg) : AnyVar → Bool
  | .proof _ => false
  | .solver v => a v

/-- The sums of the objectives for an assignment. -/
def sums (objs : List Objective) (a : Asg) : List Int := objs.map fun o => (linear a o.iter : Int)

/-- Extending an encoding writes correct lines and keeps everything; new constraints hold for the values that the variables
are meant to have. The proof has the clauses that are given to the solver. -/
structure GrowOk (objs : List Objective) (ext : Asg → Asg) (st st' : PStuff × Nat) : Prop where
  writes : Writes (ParetoOrder objs) st.1 st'.1
  keeps : Keeps st.1 st'.1
  values : st'.1.valueMap = st.1.valueMap
  bounds : st'.1.bounds = st.1.bounds
  certified : ∃ cls, Certified st.1 st'.1 cls
  nVars : st.1.proof.nProofVars ≤ st'.1.proof.nProofVars
  next : st.2 ≤ st'.2
  fresh : ∀ c ∈ live st'.1.proof.db, c ∉ live st.1.proof.db → ∀ k, Mentions c (.proof k) → k < st'.1.proof.nProofVars
  sound : ∀ a ρ, WitnessAgrees (valuesBelow ext a st'.2) st'.1.valueMap ρ → (∀ c ∈ live st.1.proof.db, c.Holds ρ) →
    ∀ c ∈ live st'.1.proof.db, c.Holds ρ

/-- A line by which a constraint is derived or deleted. -/
def Derivation : ProofStep AnyVar → Prop
  | .pol _ => True
  | .rup _ _ => True
  | .core _ => True
  | .del _ _ => True
  | _ => False

/-- The SAT solver writes correct lines that derive and delete constraints. It does not delete definitions of bounds, and
does not use variables of the proof that are not used yet. -/
structure SolverOk (objs : List Objective) (ps ps' : PStuff) : Prop where
  lines : ∃ new, ps'.proof.steps = ps.proof.steps ++ new ∧ Accepted (ParetoOrder objs) ps.proof.db new ∧
    ps'.proof.db = new.foldl (fun db st => st.apply db) ps.proof.db ∧ ∀ s ∈ new, Derivation s
  values : ps'.valueMap = ps.valueMap
  bounds : ps'.bounds = ps.bounds
  nVars : ps'.proof.nProofVars = ps.proof.nProofVars
  defs : ∀ k lit d₁ d₂, (k, (lit, d₁, d₂)) ∈ ps.bounds → ps'.proof.db.get d₁ = ps.proof.db.get d₁ ∧
    ps'.proof.db.get d₂ = ps.proof.db.get d₂
  fresh : ∀ c ∈ live ps'.proof.db, c ∉ live ps.proof.db → ∀ k, Mentions c (.proof k) → k < ps.proof.nProofVars

/-- The solution has all values: for each variable in use without a recorded meaning, the value it is meant to have. -/
def HasValues (ext : Asg → Asg) (a : Asg) (base : Assignment) (st : PStuff × Nat) : Prop :=
  ∀ v < st.2, (∀ p ∈ st.1.valueMap, p.1.var ≠ .solver v) → base[v]? = some (TV.ofBool (ext a v))

/-- What is expected along a run of `dominated_block_clause` for the solution `a`, as in `BlockAllowed`; only what the encoding
writes is stated without the state of the proof. -/
def RunAllowed (objs : List Objective) (ext : Asg → Asg) (a : Asg) (base : Assignment) (maxEncVar : Nat) (debug : Bool) :
    List BlockItem → PStuff × Nat → Prop
  | [], _ => True
  | it :: its, st =>
    if it.cost ≤ it.enc.view.offset ∨ it.enc.constant = true then
      CutContract st.1.proof.db (WitnessAgrees base st.1.valueMap) it.enc.view it.obj it.cost it.encSum ∧
        it.cost ≤ it.obj.obj.lowerBound ∧ RunAllowed objs ext a base maxEncVar debug its st
    else
      let st' := it.enc.grow (it.cost - 1) st
      GrowOk objs ext st st' ∧ HasValues ext a base st' ∧
      CutContract st'.1.proof.db (WitnessAgrees base st'.1.valueMap) it.enc.view it.obj it.cost it.encSum ∧
      it.obj.obj.lowerBound < it.cost ∧
      ∀ assumps, it.enc.view.enforceUb (it.cost - 1) = some assumps →
        (∀ l, assumps = [l] → SingleOk it l ∧ RunAllowed objs ext a base maxEncVar debug its st') ∧
        (assumps.length ≠ 1 → it.obj.obj.nLits ≠ 1 ∧ it.enc.view.nOutputs ≠ 1 ∧
          (∃ sum offset total, ReifContract st'.1.proof.db it.enc.view it.obj.obj it.cost sum offset total) ∧
          ReifAssumps it.enc.view it.obj.obj it.cost ⟨st'.2, false⟩ st'.1 assumps ∧
          NewVar objs base maxEncVar st'.1 st'.2 ∧
          ∀ id ps, certifyAssumpReification debug it.obj.obj it.enc.view it.cost ⟨st'.2, false⟩ assumps st'.1 = some (id, ps) →
            RunAllowed objs ext a base maxEncVar debug its (ps, st'.2 + 1))

end Scuttle.Spec
