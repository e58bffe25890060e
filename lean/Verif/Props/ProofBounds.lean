import Verif.Proof.ProofLog
import Verif.Props.VarManager
import Verif.Props.ProofOrder

/-!
# Bounds on objectives in the proof (C36)
-/

namespace Scuttle

/-- C36: the two definitions of the variable for a bound hold exactly if the variable is true iff the objective is at least
the bound. -/
theorem bound_defs (obj : Objective) (value : Nat) (r : AnyVar) (ρ : AnyVar → Bool) :
    ((boundDef₁ obj value r).Holds ρ ∧ (boundDef₂ obj value r).Holds ρ) ↔
      (ρ r = true ↔ value ≤ Spec.linear (Spec.solverAsg ρ) obj.iter) := boundDefs_iff obj value r ρ

/-- Asking for bounds one after the other: the literals and the ids of the definitions. -/
def getObjBounds : List (Nat × Objective) → PStuff → List (Axm AnyVar × Nat × Nat) × PStuff
  | [], ps => ([], ps)
  | (value, obj) :: qs, ps =>
    let (d, ps) := getObjBound value obj ps
    let (ds, ps) := getObjBounds qs ps
    (d :: ds, ps)

/-- C36: whatever bounds were asked for before, the lines written for a bound are correct for each order on the variables
of the solver, they leave all other constraints in place, and the answer is a literal that is true exactly if the objective
is at least the bound in each assignment that satisfies the constraints of the proof. -/
theorem bounds_defined {ord : (AnyVar → Bool) → (AnyVar → Bool) → Prop} (hord : Spec.SolverOrder ord)
    {objs : List Objective} : ∀ {qs : List (Nat × Objective)} {ps : PStuff}, (∀ q ∈ qs, objs[q.2.idx]? = some q.2) →
      Spec.BoundsDefined objs ps → Spec.ProofVarsFresh ps →
      Spec.Writes ord ps (getObjBounds qs ps).2 ∧ Spec.Keeps ps (getObjBounds qs ps).2 ∧
      Spec.BoundsDefined objs (getObjBounds qs ps).2 ∧ Spec.ProofVarsFresh (getObjBounds qs ps).2 ∧
      List.Forall₂ (fun q d => ∀ ρ, (∀ c ∈ Spec.live (getObjBounds qs ps).2.proof.db, c.Holds ρ) →
        (d.1.val ρ = 1 ↔ q.1 ≤ Spec.linear (Spec.solverAsg ρ) q.2.iter)) qs (getObjBounds qs ps).1
  | [], ps, _, hb, hf => ⟨Spec.Writes.refl ord ps, Spec.Keeps.refl ps, hb, hf, .nil⟩
  | (value, obj) :: qs, ps, hq, hb, hf => by
    obtain ⟨k, d₁, d₂, ps', he, g1, g2, _, hw, hk, hb', hf', _, _⟩ :=
      getObjBound_spec hord (value := value) (hq _ (List.mem_cons_self ..)) hb hf
    obtain ⟨hw2, hk2, hb2, hf2, hall⟩ := bounds_defined hord (qs := qs) (ps := ps')
      (fun q h => hq q (List.mem_cons_of_mem _ h)) hb' hf'
    have hrun : getObjBounds ((value, obj) :: qs) ps =
        ((⟨.proof k, false⟩, d₁, d₂) :: (getObjBounds qs ps').1, (getObjBounds qs ps').2) := by
      show (let (d, ps) := getObjBound value obj ps
            let (ds, ps) := getObjBounds qs ps
            (d :: ds, ps)) = _
      rw [he]
    rw [hrun]
    refine ⟨hw.trans hw2, hk.trans hk2, hb2, hf2, .cons (fun ρ hρ => ?_) hall⟩
    have := (bound_defs obj value (.proof k) ρ).1
      ⟨hρ _ (mem_live_of_get (hk2 _ _ g1)), hρ _ (mem_live_of_get (hk2 _ _ g2))⟩
    rw [← this, val_pos]
    cases ρ (.proof k) <;> simp

/-- C36: asking again for the same bound gives the same answer and writes nothing. -/
theorem bound_remembered {obj : Objective} {value : Nat} {ps : PStuff} :
    getObjBound value obj (getObjBound value obj ps).2 = ((getObjBound value obj ps).1, (getObjBound value obj ps).2) := by
  cases hm : mapGet (obj.idx, value) ps.bounds with
  | some d =>
    have h : getObjBound value obj ps = (d, ps) := by unfold getObjBound; rw [hm]
    rw [h]; exact h
  | none =>
    generalize hr : getObjBound value obj ps = r
    have h2 : mapGet (obj.idx, value) r.2.bounds = some r.1 := by
      rw [← hr]
      unfold getObjBound
      rw [hm]
      exact (mapGet_mapInsert _ _ _ _).trans (if_pos rfl)
    unfold getObjBound
    rw [h2]

namespace Example

/-- A proof with one clause of the instance. -/
def boundsStart : PStuff :=
  { proof := { db := [some (clauseCon [⟨0, false⟩, ⟨1, true⟩])], steps := [], nInput := 1, nProofVars := 0 }
    valueMap := [], bounds := [], added := [] }

example : Spec.BoundsDefined orderObjs boundsStart := fun _ _ _ _ _ h => by cases h

example : Spec.ProofVarsFresh boundsStart := by
  intro c hc k hm
  rw [mem_live] at hc
  have : c = clauseCon [⟨0, false⟩, ⟨1, true⟩] := by simpa [boundsStart] using hc
  subst this
  obtain ⟨p, hp, he⟩ := hm
  simp [clauseCon, LbCon.clause, toAxm] at hp
  rcases hp with rfl | rfl <;> cases he

/-- The order that compares the costs of the objectives. -/
def costOrder (objs : List Objective) (a b : AnyVar → Bool) : Prop :=
  ∀ o ∈ objs, Spec.objSum o a ≤ Spec.objSum o b

example (objs : List Objective) : Spec.SolverOrder (costOrder objs) := fun a b h o _ => by
  unfold Spec.objSum; rw [h]

/-- Three questions, two of them for the same bound. -/
def boundsAsked : List (Nat × Objective) :=
  [(3, .weighted 1 [(⟨0, false⟩, 2), (⟨1, true⟩, 5)] 0 0), (1, .unweighted 0 3 [⟨1, false⟩, ⟨2, false⟩] 1 0),
    (3, .weighted 1 [(⟨0, false⟩, 2), (⟨1, true⟩, 5)] 0 0)]

/-- They lead to four constraints. -/
example : (∀ q ∈ boundsAsked, orderObjs[q.2.idx]? = some q.2) ∧ (getObjBounds boundsAsked boundsStart).1 =
      [(⟨.proof 0, false⟩, 2, 3), (⟨.proof 1, false⟩, 4, 5), (⟨.proof 0, false⟩, 2, 3)] := by decide

end Example

end Scuttle
