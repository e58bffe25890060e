import Verif.Model.BosLog
import Verif.Props.ProofCut

/-!
# What the proof of BiOptSat rests on
-/

namespace Scuttle.Spec

/-- The literal that the proof uses for the objective being at least the cost: the output for the cost (also if the cut takes
it from elsewhere), or, while the encoding has a buffer, the remembered variable. -/
structure BoundLit (enc : EncView) (o : PObj) (cost : Nat) (ps : PStuff) (x : Axm AnyVar) : Prop where
  above : o.obj.lowerBound < cost
  output : enc.bufferEmpty = true → ∃ olit defs, enc.details cost = some (olit, defs) ∧ x = toAxm olit ∧
    (o.obj.nLits = 1 → ∀ p ∈ o.obj.iter, p.1 = olit) ∧
    (enc.nOutputs = 1 → ∀ ls, enc.enforceUb enc.offset = some ls → ls.head? = some olit.not)
  remembered : enc.bufferEmpty = false → o.obj.nLits ≠ 1 ∧ enc.nOutputs ≠ 1 ∧
    ∃ d₁ d₂, mapGet (o.obj.idx, cost) ps.bounds = some (x, d₁, d₂)

/-- The proof has a constraint that is this clause, up to how it is written. -/
def HasClause (ps : PStuff) (id : Nat) (ls : List (Axm AnyVar)) : Prop :=
  ∃ c, ps.proof.db.get id = some c ∧ c.Same (.clause ls)

/-- Clauses were given to the solver, and the proof has a constraint for each. -/
def CertifiedSame (ps ps' : PStuff) (cls : List Clause) : Prop :=
  ∃ new, ps'.added = ps.added ++ new ∧ new.map Prod.fst = cls ∧ ∀ x ∈ new, HasClause ps' x.2 (x.1.map toAxm)

/-- The increasing objective is at least its cost: from the last call of `linsu`, or, if the cost is the one after the cost
of the point before, from the cut of the point before, which says that some `y` is false, and the lower bound
then, which says that `y` is true or the increasing objective is higher. -/
def IncBound (ps : PStuff) (incCost incLb : Nat) (incLbId lastCut lastDecLb : Option Nat) (x₀ : Axm AnyVar) : Prop :=
  if incCost = incLb then ∃ i j y, lastCut = some i ∧ lastDecLb = some j ∧ HasClause ps i [y.not] ∧ HasClause ps j [x₀, y]
  else ∃ i, incLbId = some i ∧ HasClause ps i [x₀]

/-- The state when BiOptSat has found a point. The cut has the literal `x₀` for the increasing objective; the lower bound
is about `y₀`. -/
structure BosPoint (enc₀ enc₁ : EncView) (o₀ o₁ : PObj) (incCost decCost incLb : Nat) (witness : Assignment) (maxEncVar : Nat)
    (incLbId lastCut lastDecLb : Option Nat) (sum₀ sum₁ : (AnyVar → Bool) → Nat) (x₀ y₀ : Axm AnyVar) (ps : PStuff) : Prop where
  cut : CutStart [⟨enc₀, o₀, incCost, sum₀⟩, ⟨enc₁, o₁, decCost, sum₁⟩] witness maxEncVar ps
  offset : enc₀.offset = o₀.obj.lowerBound
  inc : enc₀.offset < incCost → BoundLit enc₀ o₀ incCost ps x₀ ∧ IncBound ps incCost incLb incLbId lastCut lastDecLb y₀

/-- The state when BiOptSat has found a point and goes on. The assumptions say that the increasing objective is at most its
cost; with them the decreasing objective is at least its cost. -/
structure BosStart (enc₀ enc₁ : EncView) (o₀ o₁ : PObj) (incCost decCost incLb : Nat) (witness : Assignment) (maxEncVar : Nat)
    (assumps : List Lit) (incLbId decLbId lastCut lastDecLb : Option Nat) (sum₀ sum₁ : (AnyVar → Bool) → Nat)
    (x₀ y₀ x₁ : Axm AnyVar) (ps : PStuff) : Prop extends
    BosPoint enc₀ enc₁ o₀ o₁ incCost decCost incLb witness maxEncVar incLbId lastCut lastDecLb sum₀ sum₁ x₀ y₀ ps where
  dec : BoundLit enc₁ o₁ decCost ps x₁
  decLb : ∃ i, decLbId = some i ∧ (HasClause ps i (assumps.map (fun l => toAxm l.not) ++ [x₁]) ∨ HasClause ps i [x₁])
  outs : (enc₀.bufferEmpty = true → OutputsFrom enc₀ (enc₀.nextHigher incCost) assumps) ∧
    (enc₀.bufferEmpty = false → BufferedFrom enc₀ o₀.obj (incCost + 1) (incCost + 1) assumps)
  outputs₀ : 2 ≤ assumps.length → ∃ sum offset total,
    ReifContract ps.proof.db enc₀ o₀.obj (enc₀.nextHigher incCost) sum offset total
  outputs₁ : ∃ sum offset total, ReifContract ps.proof.db enc₁ o₁.obj decCost sum offset total
  ub : ∀ as, enc₁.enforceUb (decCost - 1) = some as → (enc₁.bufferEmpty = true → OutputsFrom enc₁ decCost as) ∧
    (enc₁.bufferEmpty = false → BufferedFrom enc₁ o₁.obj decCost decCost as)
  distinct : ∀ olit defs, enc₀.details (enc₀.nextHigher incCost) = some (olit, defs) → .solver olit.var ≠ x₁.var

end Scuttle.Spec
