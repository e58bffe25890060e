import Verif.Model.ProofLog
import Verif.Spec
import Verif.SpecInst
import Verif.Proof.ProofRules
import Verif.Props.Objective

/-!
# The order of the proof (C35)
-/

namespace Scuttle

/-! ## The order -/

/-- Values for the copies of the variables, from three assignments. -/
def Spec.orderAsg (a b c : Asg) : OrderVar → Bool
  | .u v => a v
  | .v v => b v
  | .w v => c v

theorem objValue_iter (obj : Objective) (a : Asg) :
    Spec.objValue obj a = obj.offset + obj.unitWeight * (Spec.linear a obj.iter : Int) := by
  cases obj with
  | weighted => simp [Spec.objValue, Objective.offset, Objective.unitWeight, Objective.iter]
  | unweighted => simp [Spec.objValue, Objective.offset, Objective.unitWeight, Objective.iter]
  | constant => simp [Spec.objValue, Objective.offset, Objective.iter, Spec.linear]

theorem val_lit {V : Type} {ρ : V → Bool} {x : V} {a : Asg} {l : Lit} (h : ρ x = a l.var) :
    (⟨x, l.neg⟩ : Axm V).val ρ = if Spec.LitTrue a l then 1 else 0 := by
  unfold Axm.val Spec.LitTrue
  simp only
  rw [h]
  rcases Bool.eq_false_or_eq_true (a l.var) with h1 | h1 <;> rcases Bool.eq_false_or_eq_true l.neg with h2 | h2 <;>
    simp [h1, h2]

theorem orderCon_slack (obj : Objective) (x y : Nat → OrderVar) (ρ : OrderVar → Bool) (a b : Asg)
    (hx : ∀ v, ρ (x v) = a v) (hy : ∀ v, ρ (y v) = b v) :
    (orderCon obj x y).slack ρ =
      obj.unitWeight * (Spec.linear b obj.iter : Int) - obj.unitWeight * (Spec.linear a obj.iter : Int) := by
  rw [LbCon.slack_def]
  unfold orderCon
  simp only
  generalize obj.unitWeight = m
  induction obj.iter with
  | nil => simp [Spec.linear]
  | cons p l ih =>
    rw [List.flatMap_cons, List.map_append, List.sum_append]
    simp only [List.map_cons, List.map_nil, List.sum_cons, List.sum_nil]
    rw [val_lit (hx p.1.var), val_lit (hy p.1.var)]
    simp only [Spec.linear]
    push_cast
    have := ih
    simp only [sub_zero] at this ⊢
    rw [this]
    split <;> split <;> ring

/-- C35: the constraints of the order hold between two assignments exactly if the first weakly dominates the second. -/
theorem order_is_pareto (objs : List Objective) (a b c : Asg) :
    (∀ d ∈ objectivesAsOrder objs, d.1.Holds (Spec.orderAsg a b c)) ↔
      Spec.WeaklyDominates (objs.map (Spec.objValue · a)) (objs.map (Spec.objValue · b)) := by
  have hone : ∀ obj : Objective, (orderCon obj .u .v).Holds (Spec.orderAsg a b c) ↔
      Spec.objValue obj a ≤ Spec.objValue obj b := by
    intro obj
    rw [LbCon.holds_iff, orderCon_slack obj _ _ _ a b (fun _ => rfl) (fun _ => rfl)]
    rw [objValue_iter, objValue_iter]
    constructor <;> intro h <;> omega
  have hall : (∀ d ∈ objectivesAsOrder objs, d.1.Holds (Spec.orderAsg a b c)) ↔
      ∀ obj ∈ objs, Spec.objValue obj a ≤ Spec.objValue obj b := by
    unfold objectivesAsOrder
    constructor
    · intro h obj ho
      obtain ⟨i, hi, rfl⟩ := List.getElem_of_mem ho
      exact (hone _).1 (h _ (List.mem_mapIdx.2 ⟨i, hi, rfl⟩))
    · intro h d hd
      obtain ⟨i, hi, rfl⟩ := List.mem_mapIdx.1 hd
      exact (hone _).2 (h _ (List.getElem_mem hi))
  rw [hall]
  unfold Spec.WeaklyDominates
  rw [List.forall₂_map_left_iff, List.forall₂_map_right_iff, List.forall₂_same]

/-- C35: the derivation that is given for transitivity is a contradiction from the order between the first and the second
assignment, between the second and the third, and the negation of one constraint between the first and the third. -/
theorem order_transitive (objs : List Objective) {idx : Nat} {obj : Objective} (hi : objs[idx]? = some obj) :
    ∃ d ops con, (objectivesAsOrder objs)[idx]? = some (d, ops) ∧
      ops.eval ((objs.map fun o => some (orderCon o .u .v)) ++ (objs.map fun o => some (orderCon o .v .w)) ++
        [some (orderCon obj .u .w).neg]) = some con ∧ Spec.Contradiction con := by
  obtain ⟨hlt, he⟩ := List.getElem?_eq_some_iff.1 hi
  refine ⟨orderCon obj .u .v, transOps objs.length idx,
    ((orderCon obj .u .v).add (orderCon obj .v .w)).add (orderCon obj .u .w).neg, ?_, ?_, ?_⟩
  · unfold objectivesAsOrder
    rw [List.getElem?_mapIdx, hi]; rfl
  · generalize hdb : ((objs.map fun o => some (orderCon o .u .v)) ++ (objs.map fun o => some (orderCon o .v .w)) ++
      [some (orderCon obj .u .w).neg]) = db
    have h1 : ConDb.find db (.abs (idx + 1)) = some (orderCon obj .u .v) := by
      show ConDb.get db (idx + 1) = _
      unfold ConDb.get
      rw [if_neg (by omega), ← hdb, List.append_assoc, List.getElem?_append_left (by simp; omega)]
      simp [hi]
    have h2 : ConDb.find db (.abs (objs.length + idx + 1)) = some (orderCon obj .v .w) := by
      show ConDb.get db (objs.length + idx + 1) = _
      unfold ConDb.get
      rw [if_neg (by omega), ← hdb, List.append_assoc, List.getElem?_append_right (by simp),
        List.getElem?_append_left (by simp; omega)]
      simp [hi]
    have hlen : db.length = objs.length + objs.length + 1 := by rw [← hdb]; simp; omega
    have h3 : ConDb.find db (.last 1) = some (orderCon obj .u .w).neg := by
      unfold ConDb.find
      simp only
      rw [if_neg (by omega), if_pos (by omega), hlen]
      unfold ConDb.get
      rw [if_neg (by omega), ← hdb, List.getElem?_append_right (by simp)]
      simp
    unfold transOps
    simp only [Ops.eval, h1, h2, h3]
    rfl
  · intro ρ
    rw [LbCon.holds_iff, LbCon.slack_add, LbCon.slack_add, LbCon.slack_neg,
      orderCon_slack obj .u .v ρ (fun v => ρ (.u v)) (fun v => ρ (.v v)) (fun _ => rfl) (fun _ => rfl),
      orderCon_slack obj .v .w ρ (fun v => ρ (.v v)) (fun v => ρ (.w v)) (fun _ => rfl) (fun _ => rfl),
      orderCon_slack obj .u .w ρ (fun v => ρ (.u v)) (fun v => ρ (.w v)) (fun _ => rfl) (fun _ => rfl)]
    omega

/-- C35: no derivation is given for reflexivity; the negation of each constraint between an assignment and itself is
already a contradiction. -/
theorem order_reflexive (obj : Objective) : Spec.Contradiction (orderCon obj .u .u).neg := by
  intro ρ
  rw [LbCon.holds_iff, LbCon.slack_neg,
    orderCon_slack obj .u .u ρ (fun v => ρ (.u v)) (fun v => ρ (.u v)) (fun _ => rfl) (fun _ => rfl)]
  omega

namespace Example

/-- Two objectives, one of them with unit weight 3. -/
def orderObjs : List Objective :=
  [.weighted 1 [(⟨0, false⟩, 2), (⟨1, true⟩, 5)] 0 0, .unweighted 0 3 [⟨1, false⟩, ⟨2, false⟩] 1 0]

/-- The first assignment weakly dominates the second one, but not the other way round. -/
example : (∀ d ∈ objectivesAsOrder orderObjs, d.1.Holds (Spec.orderAsg (fun v => v == 1) (fun v => v != 2) fun _ => false)) ∧
    ¬ ∀ d ∈ objectivesAsOrder orderObjs, d.1.Holds (Spec.orderAsg (fun v => v != 2) (fun v => v == 1) fun _ => false) := by
  decide

example : orderObjs[1]? = some (.unweighted 0 3 [⟨1, false⟩, ⟨2, false⟩] 1 0) := rfl

end Example

end Scuttle
