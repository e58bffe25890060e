import Verif.Model.OllLog
import Verif.SpecProofLog

/-!
# Specification of proof logging for core-guided search
-/

namespace Scuttle.Spec

/-- Lines were written that a checker accepts. -/
def WritesPf (ord : (AnyVar → Bool) → (AnyVar → Bool) → Prop) (pf pf' : Pf AnyVar) : Prop :=
  ∃ new, pf'.steps = pf.steps ++ new ∧ Accepted ord pf.db new ∧ pf'.db = new.foldl (fun db s => s.apply db) pf.db

/-- How many of the leafs of a totalizer are true. -/
def leafSum (T : TotView) (root : Nat) (ρ : AnyVar → Bool) : Nat :=
  linear (solverAsg ρ) ((T.leafs root).map fun l => (l, 1))

/-- The outputs of a totalizer for `k` values from `v` on. -/
def outs (T : TotView) (root v k : Nat) : List Lit := (List.range' v k).map (T.out root)

/-- What is derived for a core of which the outputs up to value `n` are in use: all leafs minus these outputs are at
least one, so `n` of the leafs and of the negated outputs with values `2` to `n` are true. -/
def coreCon (T : TotView) (root n : Nat) : LbCon AnyVar :=
  ⟨((T.leafs root).map fun l => (1, toAxm l)) ++ (outs T root 2 (n - 1)).map fun o => (1, toAxm o.not), n⟩

/-- The constraint that `/repo/core/src/algs/coreboosting.rs:156-192` compares the reformulation with (if proofs are
verbose): the objective minus the inactive literals and minus the outputs that are not in use yet is at least the offset. -/
def reformCon (obj : Objective) (T : TotView) (st : OllLog) : LbCon AnyVar :=
  ⟨(obj.iter.map fun p => ((p.2 : Int), toAxm p.1)) ++ (st.inactives.map fun p => (-(p.2 : Int), toAxm p.1)) ++
    st.refs.flatMap fun p => (outs T p.2.root (p.2.oidx + 2) (T.len p.2.root - (p.2.oidx + 1))).map fun o =>
      (-(p.2.totWeight : Int), toAxm o), st.offset⟩

/-- The outputs of all totalizers are right: each tells whether that many of the leafs are true. -/
def OutputsRight (T : TotView) (ρ : AnyVar → Bool) : Prop :=
  ∀ root v, 2 ≤ v → v ≤ T.len root → ((toAxm (T.out root v)).val ρ = 1 ↔ v ≤ leafSum T root ρ)

/-- Outputs of totalizers are different, and different from the leafs. -/
structure TotContract (T : TotView) : Prop where
  distinct : ∀ root, ((T.leafs root ++ outs T root 2 (T.len root - 1)).map Lit.var).Nodup
  injective : ∀ r r' v v', 2 ≤ v → v ≤ T.len r → 2 ≤ v' → v' ≤ T.len r' → T.out r v = T.out r' v' → r = r' ∧ v = v'

/-- Constraints that the search has to combine later. -/
def tracked (st : OllLog) : List (Nat × Nat) :=
  (st.refs.map fun p => (p.2.proofId, p.2.totWeight)) ++ st.reformIds ++ st.cores.map fun c => (c.proofId, c.weight)

/-- The output has its definition in the proof, which is not one of the given constraints. -/
def OutputDefined (T : TotView) (db : ConDb AnyVar) (used : List Nat) (root v : Nat) : Prop :=
  ∃ sem d c, T.sems root v = some sem ∧ sem.onlyIfDef = some d ∧ d ∉ used ∧ db.get d = some c ∧
    OnlyIfDef c (leafSum T root) v (toAxm (T.out root v))

/-- What is assumed of the solver and of the totalizer database. -/
def OllAllowed (T : TotView) (ord : (AnyVar → Bool) → (AnyVar → Bool) → Prop) (st : OllLog) : OllEvent → Prop
  | .core lits id => lits.Nodup ∧ lits ≠ [] ∧ (∃ c, st.proof.db.get id = some c ∧ LbCon.Same c (clauseCon lits)) ∧
      id ∉ (tracked st).map Prod.fst ∧
      ∀ p ∈ st.refs, p.1 ∈ lits → p.2.oidx + 1 < T.len p.2.root →
        OutputDefined T st.proof.db ((tracked st).map Prod.fst) p.2.root (p.2.oidx + 2)
  | .reform root => ∀ c ∈ st.cores.head?, (T.leafs root).Perm c.lits ∧ T.len root = c.lits.length ∧
      OutputDefined T st.proof.db [] root 2 ∧ (∀ p ∈ st.refs, p.2.root ≠ root) ∧
      ∀ v, 2 ≤ v → v ≤ T.len root → ∀ p ∈ st.inactives, p.1 ≠ T.out root v
  | .others lines => Accepted ord st.proof.db lines ∧
      ∀ p ∈ tracked st, (st.proof.writeAll lines).db.get p.1 = st.proof.db.get p.1

/-- What is assumed during a run. -/
def OllAllowedAll (T : TotView) (ord : (AnyVar → Bool) → (AnyVar → Bool) → Prop) : List OllEvent → OllLog → Prop
  | [], _ => True
  | e :: es, st => OllAllowed T ord st e ∧ ∀ st', st.event T e = some st' → OllAllowedAll T ord es st'

/-- What is assumed at the end: all cores are reformulated, and all further outputs are defined. -/
def OllEnd (T : TotView) (st : OllLog) : Prop :=
  st.cores = [] ∧ ∀ p ∈ st.refs, ∀ v, p.2.oidx + 2 ≤ v → v ≤ T.len p.2.root →
    OutputDefined T st.proof.db ((tracked st).map Prod.fst) p.2.root v

end Scuttle.Spec
