import Verif.Model.ProofLog
import Verif.Spec
import Verif.SpecInst
import Verif.SpecProof

/-!
# What the lines written to a proof are for

Specification of the proof logging code: what constraints on objectives mean, and what it means that the lines written by
a function are correct.
-/

namespace Scuttle.Spec

/-- The values of the variables of the solver. -/
def solverAsg (ρ : AnyVar → Bool) : Asg := fun v => ρ (.solver v)

/-- The weights of the true literals of an objective. -/
def objSum (obj : Objective) (ρ : AnyVar → Bool) : Nat := linear (solverAsg ρ) obj.iter

/-- The constraint uses a variable. -/
def Mentions {V : Type} (c : LbCon V) (v : V) : Prop := ∃ p ∈ c.lits, p.2.var = v

/-- The order of a proof only depends on the variables of the solver, and each assignment is as good as itself. -/
def SolverOrder (ord : (AnyVar → Bool) → (AnyVar → Bool) → Prop) : Prop :=
  ∀ a b, solverAsg a = solverAsg b → ord a b

/-- Between two states only correct lines are written. -/
def Writes (ord : (AnyVar → Bool) → (AnyVar → Bool) → Prop) (ps ps' : PStuff) : Prop :=
  ∃ new, ps'.proof.steps = ps.proof.steps ++ new ∧ Accepted ord ps.proof.db new ∧
    ps'.proof.db = new.foldl (fun db st => st.apply db) ps.proof.db

/-- No constraint is removed. -/
def Keeps (ps ps' : PStuff) : Prop := ∀ i c, ps.proof.db.get i = some c → ps'.proof.db.get i = some c

/-- Variables of the proof only that are not used yet do not occur in constraints. -/
def ProofVarsFresh (ps : PStuff) : Prop :=
  ∀ c ∈ live ps.proof.db, ∀ k, Mentions c (.proof k) → k < ps.proof.nProofVars

/-- The remembered bounds on objectives have their two definitions in the proof and their meaning in `value_map`. -/
def BoundsDefined (objs : List Objective) (ps : PStuff) : Prop :=
  ∀ idx value lit d₁ d₂, ((idx, value), (lit, d₁, d₂)) ∈ ps.bounds → ∃ obj k, objs[idx]? = some obj ∧ obj.idx = idx ∧
    lit = ⟨.proof k, false⟩ ∧ k < ps.proof.nProofVars ∧ ps.proof.db.get d₁ = some (boundDef₁ obj value (.proof k)) ∧
    ps.proof.db.get d₂ = some (boundDef₂ obj value (.proof k)) ∧ (lit, ProofVal.objAtLeast idx value) ∈ ps.valueMap

end Scuttle.Spec

namespace Scuttle.Spec

/-! ## The P-minimal cut -/

/-- The assignment has the values of `base` for the variables of the solver that have no recorded meaning. -/
def WitnessAgrees (base : Assignment) (m : List (Axm AnyVar × ProofVal)) (ρ : AnyVar → Bool) : Prop :=
  ∀ v b, base[v]? = some (TV.ofBool b) → (∀ p ∈ m, p.1.var ≠ .solver v) → ρ (.solver v) = b

/-- Recorded variables have the recorded meaning. -/
def Meaning (objs : List Objective) (m : List (Axm AnyVar × ProofVal)) (ρ : AnyVar → Bool) : Prop :=
  (∀ this that, (this, ProofVal.identical that) ∈ m → this.val ρ = (toAxm that).val ρ) ∧
  ∀ this idx value, (this, ProofVal.objAtLeast idx value) ∈ m → ∀ o, objs[idx]? = some o →
    (this.val ρ = 1 ↔ value ≤ objSum o ρ)

/-- What is kept while a proof is written. The solution `base` (with the values of the variables of the encodings) satisfies
all constraints of the proof once the recorded variables get their meaning. -/
structure LogState (objs : List Objective) (base : Assignment) (ps : PStuff) : Prop where
  bounds : BoundsDefined objs ps
  fresh : ProofVarsFresh ps
  keys : (ps.valueMap.map fun p => p.1.var).Nodup
  below : ∀ p ∈ ps.valueMap, ∀ k, p.1.var = .proof k → k < ps.proof.nProofVars
  identical : ∀ this that, (this, ProofVal.identical that) ∈ ps.valueMap → ∀ p ∈ ps.valueMap, p.1.var ≠ .solver that.var
  solves : ∀ ρ, WitnessAgrees base ps.valueMap ρ → Meaning objs ps.valueMap ρ → ∀ c ∈ live ps.proof.db, c.Holds ρ

/-- What the proof needs of an objective and its encoding. `encSum` is the sum that the encoding counts (the objective, or
what is left of it after core boosting), and `W` says that an assignment has the values of the solution. -/
structure CutContract (db : ConDb AnyVar) (W : (AnyVar → Bool) → Prop) (enc : EncView) (o : PObj) (cst : Nat)
    (encSum : (AnyVar → Bool) → Nat) : Prop where
  /-- The solution has this cost. -/
  cost : ∀ ρ, W ρ → objSum o.obj ρ = cst
  /-- After core boosting, the objective is at least what the encoding counts plus the lower bound. -/
  reform : ∀ r, o.reformId = some r → ∃ c, db.get r = some c ∧
    ∀ ρ, c.slack ρ = (objSum o.obj ρ : Int) - encSum ρ - o.obj.lowerBound
  /-- Without core boosting, the encoding counts the objective. -/
  plain : o.reformId = none → o.obj.lowerBound = 0 ∧ ∀ ρ, encSum ρ = objSum o.obj ρ
  /-- After core boosting the encoding has all literals of the objective. -/
  buffered : enc.bufferEmpty = false → o.reformId = none
  /-- The output for the cost has its definition in the proof, and the solution makes it true. -/
  output : enc.bufferEmpty = true → o.obj.lowerBound < cst → ∀ olit defs, enc.details cst = some (olit, defs) →
    (∀ ρ, W ρ → (toAxm olit).val ρ = 1) ∧ ∃ d c, defs.onlyIfDef = some d ∧ db.get d = some c ∧
      ∀ ρ, c.slack ρ = (encSum ρ : Int) + ((cst : Int) - o.obj.lowerBound) * (1 - (toAxm olit).val ρ) -
        ((cst : Int) - o.obj.lowerBound)
  /-- If there is only one output, then the objective is at least the cost if it is true, and the solution makes it true. -/
  single : enc.nOutputs = 1 → o.obj.lowerBound < cst → ∀ ls l, enc.enforceUb enc.offset = some ls → ls.head? = some l →
    (∀ ρ, W ρ → (toAxm l).val ρ = 0) ∧
    ∀ ρ, (∀ c ∈ live db, c.Holds ρ) → (toAxm l).val ρ = 0 → cst ≤ objSum o.obj ρ

/-- An objective with its encoding, the cost of the solution, and what the encoding counts. -/
structure CutItem where
  enc : EncView
  obj : PObj
  cost : Nat
  encSum : (AnyVar → Bool) → Nat

/-- The objective. -/
def CutItem.objective (it : CutItem) : Objective := it.obj.obj

/-- The constraint of one objective in the order, between a solution of the given cost and the assignment. -/
def orderGoal (o : Objective) (cst : Nat) : LbCon AnyVar :=
  { lits := o.iter.map fun p => ((p.2 : Int) * o.unitWeight, toAxm p.1)
    bound := (o.unitWeight : Int) * cst }

/-- The order of the proof: the first assignment weakly dominates the second one. -/
def ParetoOrder (objs : List Objective) (a b : AnyVar → Bool) : Prop :=
  WeaklyDominates (objs.map fun o => objValue o (solverAsg a)) (objs.map fun o => objValue o (solverAsg b))

/-- A subproof is correct: each line is, and the last one is a contradiction. -/
def SubproofOk : ConDb AnyVar → List (Deriv AnyVar) → Prop
  | db, [] => ∃ c, db.getLast? = some (some c) ∧ Contradiction c
  | db, .pol o :: ds => ∃ c, o.eval db = some c ∧ SubproofOk (db ++ [some c]) ds
  | db, .rup c hints :: ds => (∃ hs, hints.mapM db.find = some hs ∧ Rup hs c) ∧ SubproofOk (db ++ [some c]) ds

end Scuttle.Spec

namespace Scuttle.Spec

/-! ## Outputs of encodings -/

/-- The constraint says that the output is true only if the sum is at least `k`. -/
def OnlyIfDef (c : LbCon AnyVar) (sum : (AnyVar → Bool) → Nat) (k : Nat) (o : Axm AnyVar) : Prop :=
  ∀ ρ, c.slack ρ = (sum ρ : Int) + k * (1 - o.val ρ) - k

/-- The constraint says that the output is true if the sum, which is at most `total`, is at least `k`. -/
def IfDef (c : LbCon AnyVar) (sum : (AnyVar → Bool) → Nat) (total k : Nat) (o : Axm AnyVar) : Prop :=
  ∀ ρ, c.slack ρ = ((total : Int) - sum ρ) + ((total : Int) - k + 1) * o.val ρ - ((total : Int) - k + 1)

/-- The assumptions are the negated outputs from a value on. -/
def OutputsFrom (enc : EncView) : Nat → List Lit → Prop
  | _, [] => True
  | val, a :: as => (∃ defs, enc.details val = some (a.not, defs)) ∧ OutputsFrom enc (enc.nextHigher val) as

/-- The assumptions are negated literals of the objective whose weight is at least `value`, and negated outputs. -/
def BufferedFrom (enc : EncView) (obj : Objective) (value : Nat) : Nat → List Lit → Prop
  | _, [] => True
  | val, a :: as => ∃ olit defs, enc.details val = some (olit, defs) ∧
      ((a.var < olit.var ∧ (∃ w, value ≤ w ∧ (a.not, w) ∈ obj.iter) ∧ BufferedFrom enc obj value val as) ∨
        (¬ a.var < olit.var ∧ olit.not = a ∧ BufferedFrom enc obj value (enc.nextHigher val) as))

/-- What the proof needs of the outputs of an encoding. The definitions of outputs are about `encSum` plus `offset`; while
the buffer is not empty the encoding counts a part of the objective only. -/
structure ReifContract (db : ConDb AnyVar) (enc : EncView) (obj : Objective) (value : Nat)
    (encSum : (AnyVar → Bool) → Nat) (offset total : Nat) : Prop where
  range : offset < value ∧ value ≤ offset + total
  higher : ∀ val, val < enc.nextHigher val
  ifDef : ∀ val olit defs d, enc.details val = some (olit, defs) → defs.ifDef = some d →
    ∃ c, db.get d = some c ∧ IfDef c encSum total (val - offset) (toAxm olit)
  onlyIfDef : ∀ val olit defs d, enc.details val = some (olit, defs) → defs.onlyIfDef = some d →
    ∃ c, db.get d = some c ∧ OnlyIfDef c encSum (val - offset) (toAxm olit)
  distinct : ∀ val val' olit olit' defs defs', val < val' → enc.details val = some (olit, defs) →
    enc.details val' = some (olit', defs') → olit.var ≠ olit'.var
  part : enc.bufferEmpty = false → offset = 0 ∧ ∀ ρ, encSum ρ ≤ objSum obj ρ

/-- A variable of the solver that is not used yet. -/
structure FreshVar (objs : List Objective) (ps : PStuff) (r : Nat) : Prop where
  db : ∀ c ∈ live ps.proof.db, ¬ Mentions c (.solver r)
  objs : ∀ o ∈ objs, ∀ p ∈ o.iter, p.1.var ≠ r
  keys : ∀ p ∈ ps.valueMap, p.1.var ≠ .solver r
  that : ∀ this that, (this, ProofVal.identical that) ∈ ps.valueMap → that.var ≠ r

/-- Clauses were given to the solver, and the proof has a constraint for each. -/
def Certified (ps ps' : PStuff) (cls : List Clause) : Prop :=
  ∃ new, ps'.added = ps.added ++ new ∧ new.map Prod.fst = cls ∧ ∀ x ∈ new, ps'.proof.db.get x.2 = some (clauseCon x.1)

end Scuttle.Spec
