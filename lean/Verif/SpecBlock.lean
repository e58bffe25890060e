import Verif.Model.BlockLog
import Verif.SpecProofLog

/-!
# What blocking clauses in the proof rest on

What is expected of the encodings of objectives and of variables while a blocking clause is built.
-/

namespace Scuttle.Spec

/-- An objective with its encoding, the cost of the solution and what the encoding counts. -/
structure BlockItem where
  enc : BlockEnc
  obj : PObj
  cost : Nat
  encSum : (AnyVar → Bool) → Nat

/-- What the cut needs of it. -/
def BlockItem.cut (it : BlockItem) : CutItem := ⟨it.enc.view, it.obj, it.cost, it.encSum⟩

/-- The assumptions that the literal stands for. -/
def ReifAssumps (enc : EncView) (obj : Objective) (value : Nat) (reif : Lit) (ps : PStuff) (assumps : List Lit) : Prop :=
  (enc.bufferEmpty = true → OutputsFrom enc value assumps ∧
    ∀ a ∈ assumps.head?, a.var ≠ reif.var ∧ ∀ p ∈ ps.valueMap, p.1.var ≠ .solver a.var) ∧
  (enc.bufferEmpty = false → BufferedFrom enc obj value value assumps)

/-- Extending an encoding writes correct lines, and the proof has the clauses that it gives to the solver. -/
structure ExtendOk (objs : List Objective) (base : Assignment) (ps ps' : PStuff) : Prop where
  writes : Writes (ParetoOrder objs) ps ps'
  keeps : Keeps ps ps'
  state : LogState objs base ps'
  values : ps'.valueMap = ps.valueMap
  bounds : ps'.bounds = ps.bounds
  certified : ∃ cls, Certified ps ps' cls

/-- A single assumption is the literal that the cut is about. -/
structure SingleOk (it : BlockItem) (a : Lit) : Prop where
  lit : it.obj.obj.nLits = 1 → ∀ p ∈ it.obj.obj.iter, a = p.1.not
  output : it.enc.view.nOutputs = 1 → ∀ ls, it.enc.view.enforceUb it.enc.view.offset = some ls → ls.head? = some a
  value : it.enc.view.bufferEmpty = true → ∀ olit defs, it.enc.view.details it.cost = some (olit, defs) → a = olit.not

/-- A variable is new: nothing uses it, the solution has no value for it, and it does not belong to the instance. -/
structure NewVar (objs : List Objective) (base : Assignment) (maxEncVar : Nat) (ps : PStuff) (v : Nat) : Prop where
  fresh : FreshVar objs ps v
  unset : ∀ b, base[v]? ≠ some (TV.ofBool b)
  above : maxEncVar < v

/-- What is expected along a run of `dominated_block_clause`. For an objective that is not blocked, the solution has the
least possible cost. Otherwise the encoding is extended; a single assumption is the literal of the cut; and several
assumptions get a new variable. -/
def BlockAllowed (objs : List Objective) (base : Assignment) (maxEncVar : Nat) (debug : Bool) :
    List BlockItem → PStuff × Nat → Prop
  | [], _ => True
  | it :: its, st =>
    if it.cost ≤ it.enc.view.offset ∨ it.enc.constant = true then
      CutContract st.1.proof.db (WitnessAgrees base st.1.valueMap) it.enc.view it.obj it.cost it.encSum ∧
        it.cost ≤ it.obj.obj.lowerBound ∧ BlockAllowed objs base maxEncVar debug its st
    else
      let st' := it.enc.grow (it.cost - 1) st
      ExtendOk objs base st.1 st'.1 ∧
      CutContract st'.1.proof.db (WitnessAgrees base st'.1.valueMap) it.enc.view it.obj it.cost it.encSum ∧
      it.obj.obj.lowerBound < it.cost ∧
      ∀ assumps, it.enc.view.enforceUb (it.cost - 1) = some assumps →
        (∀ a, assumps = [a] → SingleOk it a ∧ BlockAllowed objs base maxEncVar debug its st') ∧
        (assumps.length ≠ 1 → it.obj.obj.nLits ≠ 1 ∧ it.enc.view.nOutputs ≠ 1 ∧
          (∃ sum offset total, ReifContract st'.1.proof.db it.enc.view it.obj.obj it.cost sum offset total) ∧
          ReifAssumps it.enc.view it.obj.obj it.cost ⟨st'.2, false⟩ st'.1 assumps ∧
          NewVar objs base maxEncVar st'.1 st'.2 ∧
          ∀ id ps, certifyAssumpReification debug it.obj.obj it.enc.view it.cost ⟨st'.2, false⟩ assumps st'.1 = some (id, ps) →
            BlockAllowed objs base maxEncVar debug its (ps, st'.2 + 1))

/-- While literals of the objective are missing in the encoding, there is not just one assumption. -/
def Unbuffered (it : BlockItem) : Prop :=
  it.enc.view.offset < it.cost → it.enc.constant = false → it.enc.view.bufferEmpty = false → it.obj.obj.nLits ≠ 1 →
    it.enc.view.nOutputs ≠ 1 → ∀ as, it.enc.view.enforceUb (it.cost - 1) = some as → as.length ≠ 1

end Scuttle.Spec
