import Verif.Model.LinsuLog
import Verif.SpecProofLog

/-!
# What lower bounds in the proof rest on
-/

namespace Scuttle.Spec

/-- While the encoding has a buffer: a literal of a core whose variable is smaller than one of an output is a literal of the
objective with at least this weight, and a literal with the variable of an output is the output. -/
def BufferedCore (enc : EncView) (obj : Objective) (cost : Nat) (cs : List Lit) : Prop :=
  ∀ c ∈ cs, ∀ val, cost ≤ val → ∀ olit defs, enc.details val = some (olit, defs) →
    (c.var < olit.var → ∃ w, cost ≤ w ∧ (c, w) ∈ obj.iter) ∧ (c.var = olit.var → c = olit)

/-- The state when the solver has shown that the cost cannot be below `cost` under the base assumptions: the core has negated
base assumptions `bs`, in their order, and then other literals `os`, and its constraint is in the proof. -/
structure LinsuStart (objs : List Objective) (base : Assignment) (bas bs os : List Lit) (cost : Nat) (obj : Objective)
    (enc : EncView) (coreId : Nat) (encSum : (AnyVar → Bool) → Nat) (offset total : Nat) (ps : PStuff) : Prop where
  state : LogState objs base ps
  index : objs[obj.idx]? = some obj
  contract : ReifContract ps.proof.db enc obj cost encSum offset total
  core : ∃ con, ps.proof.db.get coreId = some con ∧ con.Same (clauseCon (bs.map Lit.not ++ os))
  nodup : bas.Nodup
  sub : bs.Sublist bas
  outputs : os ≠ []
  disjoint : ∀ o ∈ os, o.not ∉ bas

/-- With an empty buffer: the core has outputs from a value on, in their order, and the definitions of outputs are in the proof. -/
structure OutputCore (enc : EncView) (cost : Nat) (os outs : List Lit) : Prop where
  outputs : OutputsFrom enc cost outs
  sub : (os.map Lit.not).Sublist outs
  ifDef : ∀ olit defs, enc.details cost = some (olit, defs) → defs.ifDef.isSome
  onlyIfDef : ∀ val olit defs, enc.details val = some (olit, defs) → defs.onlyIfDef.isSome
  unit : ∀ c, os = [c] → ∃ defs, enc.details cost = some (c, defs)

end Scuttle.Spec
