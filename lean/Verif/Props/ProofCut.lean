import Verif.Proof.ProofCut
import Verif.Props.ProofBounds

/-!
# The P-minimal cut in the proof (C37)
-/

namespace Scuttle

open Spec (CutItem)

/-- The state before a cut for a solution: each objective has its index, what is kept holds, and the values that the
encodings add and the recorded variables are not variables of the instance. -/
structure Spec.CutStart (items : List CutItem) (witness : Assignment) (maxEncVar : Nat) (ps : PStuff) : Prop where
  idx : ∀ (j : Nat) it, items[j]? = some it → it.objective.idx = j
  state : Spec.LogState (items.map CutItem.objective) (cutBase (items.map CutItem.enc) witness) ps
  contract : ∀ it ∈ items, Spec.CutContract ps.proof.db
    (Spec.WitnessAgrees (cutBase (items.map CutItem.enc) witness) ps.valueMap) it.enc it.obj it.cost it.encSum
  keys : ∀ p ∈ ps.valueMap, ∀ v, p.1.var = .solver v → maxEncVar < v
  extend : ∀ it ∈ items, ∀ l ∈ it.enc.extend witness, maxEncVar < l.var

theorem Spec.CutStart.run {items : List CutItem} {witness : Assignment} {maxEncVar : Nat} {ps ps₁ : PStuff}
    (S : Spec.CutStart items witness maxEncVar ps) {debug : Bool} {ds : List (Option (Axm AnyVar) × Option Nat)}
    (h : cutData debug (items.map CutItem.enc) (items.map CutItem.obj) (items.map CutItem.cost) ps = some (ds, ps₁)) :
    Grows (Spec.ParetoOrder (items.map CutItem.objective)) (items.map CutItem.objective)
      (cutBase (items.map CutItem.enc) witness) ps ps₁ ∧
    List.Forall₂ (fun it d => DatumOk (items.map CutItem.objective) (cutBase (items.map CutItem.enc) witness) ps₁
      it.obj it.cost it.encSum d) items ds ∧
    ∀ it ∈ items, Spec.CutContract ps₁.proof.db
      (Spec.WitnessAgrees (cutBase (items.map CutItem.enc) witness) ps₁.valueMap) it.enc it.obj it.cost it.encSum := by
  obtain ⟨h1, h2⟩ := cutData_spec (paretoOrder_solver _) h S.state (fun it hi => by
    obtain ⟨i, hlt, rfl⟩ := List.getElem_of_mem hi
    have := S.idx i items[i] (List.getElem?_eq_getElem hlt)
    show (items.map CutItem.objective)[(items[i]).objective.idx]? = _
    rw [this, List.getElem?_map, List.getElem?_eq_getElem hlt]
    rfl) (witnessAgrees_exists _ _) S.contract
  exact ⟨h1, h2, fun it hi => (S.contract it hi).mono h1⟩

/-- C37: all lines that `certify_pmin_cut` writes are correct for the Pareto order, and no other constraint is lost. The
clause it derives is violated by the solution, and it only cuts off assignments that are not better than the solution in any
objective. -/
theorem pmin_cut_accepted {items : List CutItem} {witness : Assignment} {maxEncVar cutId : Nat} {debug : Bool}
    {ps ps' : PStuff} (S : Spec.CutStart items witness maxEncVar ps)
    (h : certifyPminCut debug (items.map CutItem.enc) (items.map CutItem.obj) (items.map CutItem.cost) witness maxEncVar ps =
      some (cutId, ps')) :
    Spec.Writes (Spec.ParetoOrder (items.map CutItem.objective)) ps ps' ∧ Spec.Keeps ps ps' ∧
    Spec.BoundsDefined (items.map CutItem.objective) ps' ∧ Spec.ProofVarsFresh ps' ∧ ps'.added = ps.added ∧
    ∃ cut, ps'.proof.db.get cutId = some (.clause cut) ∧
      (∀ ρ, (∀ i c, i ≠ cutId → ps'.proof.db.get i = some c → c.Holds ρ) → ¬ (LbCon.clause cut).Holds ρ →
        Spec.WeaklyDominates (items.map fun it => (it.cost : Int)) (items.map fun it => (Spec.objSum it.objective ρ : Int))) ∧
      (∀ ρ, Spec.WitnessAgrees (cutBase (items.map CutItem.enc) witness) ps'.valueMap ρ →
        Spec.Meaning (items.map CutItem.objective) ps'.valueMap ρ → ¬ (LbCon.clause cut).Holds ρ) := by
  obtain ⟨ds, ps₁, ω, h1, h2, rfl, hs, hdb, hv, hb, ha, hn⟩ := certifyPminCut_run h
  obtain ⟨G, hd, hK⟩ := S.run h1
  have F := cutFacts h2 G.state hd hK
  generalize hcut : ds.filterMap Prod.fst = cut at *
  generalize hlen : ps₁.proof.db.length = n at *
  have hg3 : ∀ db : ConDb AnyVar, db.length = n → ∀ a b c, ConDb.get (db ++ [a] ++ [b] ++ [c]) (n + 3) = c := by
    intro db hdl a b c
    have := ConDb.get_new (db ++ [a] ++ [b]) c
    simp only [List.length_append, List.length_cons, List.length_nil, hdl] at this
    exact this
  have hg2 : ∀ db : ConDb AnyVar, db.length = n → ∀ a b, ConDb.get (db ++ [a] ++ [b]) (n + 2) = b := by
    intro db hdl a b
    have := ConDb.get_new (db ++ [a]) b
    simp only [List.length_append, List.length_cons, List.length_nil, hdl] at this
    exact this
  have hg1 : ∀ db : ConDb AnyVar, db.length = n → ∀ a, ConDb.get (db ++ [a]) (n + 1) = a := by
    intro db hdl a
    have := ConDb.get_new db a
    rw [hdl] at this
    exact this
  have hkeep : Spec.Keeps ps₁ ps' := fun i c hc => by
    have hi := ConDb.get_lt hc
    rw [hlen] at hi
    rw [hdb, ConDb.get_delete (by simp; omega), List.append_assoc, List.append_assoc]
    exact ConDb.get_append _ hc
  have hcutget : ps'.proof.db.get (n + 3) = some (.clause cut) := by
    rw [hdb, ConDb.get_delete (by simp), hg3 _ hlen]
  have hw : Spec.Writes (Spec.ParetoOrder (items.map CutItem.objective)) ps₁ ps' := by
    refine ⟨_, hs, ⟨mapDom_redundant F, ⟨?_, ?_⟩, ⟨[mapDomCon ω cut, .clause (ω.map Axm.not)], ?_, cut_rup ω cut⟩, ?_, ?_, trivial⟩, hdb⟩
    · intro a ha
      obtain ⟨l, hl, rfl⟩ := List.mem_map.1 ha
      rw [mem_toLits] at hl
      unfold Assignment.truncate at hl
      obtain ⟨hlt, hl'⟩ := List.getElem?_eq_some_iff.1 hl
      have hle : l.var ≤ maxEncVar := by
        have : (witness.take (maxEncVar + 1)).length ≤ maxEncVar + 1 := List.length_take_le _ _
        omega
      have hwit : witness[l.var]? = some (TV.ofBool (!l.neg)) := by
        rw [List.getElem?_take_of_lt (by omega)] at hl; exact hl
      have := (fixedWitness_spec h2 G.state.keys G.state.identical).2.1 l.var (!l.neg) ?_ ?_
      · simpa [toAxm] using this
      · rw [cutBase_get]
        · exact hwit
        · intro enc he x hx hxv
          obtain ⟨it, hi, rfl⟩ := List.mem_map.1 he
          have := S.extend it hi x hx
          omega
      · intro p hp hpv
        have := S.keys p (G.solver p hp _ hpv) _ hpv
        omega
    · refine ⟨Spec.subst ω fun _ => false, fun a ha => subst_true F.consistent _ ha, fun d hd => ?_⟩
      have hω : ∀ a ∈ ω, Spec.subst ω (fun _ => false) a.var = !a.neg := fun a ha => subst_true F.consistent _ ha
      rcases (live_append _ _).1 hd with hd | rfl
      · exact F.solves _ hω d hd
      · exact (mapDom_holds ω cut _).2 (Or.inr hω)
    · simp only [List.mapM_cons, List.mapM_nil, ConDb.find_abs, ProofStep.apply]
      rw [hg2 _ hlen, ConDb.get_append _ (hg1 _ hlen _)]
      rfl
    · intro i hi
      cases List.mem_singleton.1 hi
      simp only [ProofStep.apply]
      rw [hg3 _ hlen]; rfl
    · intro i hi
      simp only [ProofStep.apply]
      rcases List.mem_cons.1 hi with rfl | hi
      · rw [ConDb.get_append _ (hg2 _ hlen _ _)]; rfl
      · cases List.mem_singleton.1 hi
        rw [ConDb.get_append _ (ConDb.get_append _ (hg1 _ hlen _))]; rfl
  have hold : ∀ i c, ps'.proof.db.get i = some c → i ≠ n + 3 → c ∈ Spec.live ps₁.proof.db := by
    intro i c hc hne
    by_cases hi : i ∈ [n + 2, n + 1]
    · rw [hdb, ConDb.get_deleted hi] at hc; cases hc
    · rw [hdb, ConDb.get_delete hi] at hc
      have hb := ConDb.get_lt hc
      simp only [List.length_append, List.length_cons, List.length_nil, hlen] at hb
      simp only [List.mem_cons, List.not_mem_nil, or_false, not_or] at hi
      rw [List.append_assoc, List.append_assoc] at hc
      rw [ConDb.get_append_le _ (by omega)] at hc
      exact mem_live_of_get hc
  refine ⟨G.writes.trans hw, G.keeps.trans hkeep, ?_, ?_, ha.trans G.added, cut, hcutget, fun ρ hρ hc => ?_, fun ρ h1 h2 => ?_⟩
  · exact G.state.bounds.mono hkeep hb (by rw [hn]) (fun x hx => by rw [hv]; exact hx)
  · intro c hc k hm
    rw [hn]
    obtain ⟨i, hi⟩ := get_of_mem_live hc
    by_cases he : i = n + 3
    · subst he
      rw [hcutget] at hi
      cases hi
      obtain ⟨p, hp, hpv⟩ := hm
      obtain ⟨l, hl, rfl⟩ := List.mem_map.1 hp
      exact F.fresh l hl k hpv
    · exact G.state.fresh c (hold i c hi he) k hm
  · unfold Spec.WeaklyDominates
    rw [List.forall₂_map_left_iff, List.forall₂_map_right_iff, List.forall₂_same]
    intro it hi
    refine Int.ofNat_le.2 (F.atLeast ρ (fun c hc' => ?_) (not_clause.1 hc) it hi)
    obtain ⟨i, hi⟩ := get_of_mem_live hc'
    refine hρ i c ?_ (hkeep _ _ hi)
    have := ConDb.get_lt hi
    omega
  · rw [hv] at h1 h2
    exact not_clause.2 (F.falsified ρ h1 h2)

/-- C51: what has to hold for an objective, between the solution and another assignment, is the constraint of the order. -/
theorem orderGoal_is_order (o : Objective) {cst : Nat} {a b : AnyVar → Bool} (h : Spec.objSum o a = cst) :
    (Spec.orderGoal o cst).Holds b ↔
      (orderCon o .u .v).Holds (Spec.orderAsg (Spec.solverAsg a) (Spec.solverAsg b) fun _ => false) := by
  rw [LbCon.holds_iff, LbCon.holds_iff, orderGoal_slack, orderCon_slack o _ _ _ (Spec.solverAsg a) (Spec.solverAsg b)
    (fun _ => rfl) (fun _ => rfl), ← h]
  rfl

/-- C51: the subproofs given with the lines of `certify_pmin_cut` are right. In the one for the mapping of dominated
solutions, `negation_id` is the negation of the mapping and the last constraint is the negation of the order for one
objective; objectives without a subproof with at most one literal or without cost are settled by unit propagation. In the
subproof for the deletion, the last constraint is the negation of the excluded solution.

Partial: for objectives whose cost is not more than the lower bound found by core boosting, this needs unit weight 1, see
`pmin_cut_unit_weight`. -/
theorem pmin_cut_goals_partial {items : List CutItem} {witness : Assignment} {maxEncVar cutId : Nat} {debug : Bool}
    {ps ps' : PStuff} (S : Spec.CutStart items witness maxEncVar ps)
    (h : certifyPminCut debug (items.map CutItem.enc) (items.map CutItem.obj) (items.map CutItem.cost) witness maxEncVar ps =
      some (cutId, ps'))
    (hunit : ∀ it ∈ items, it.obj.reformId.isSome → it.cost ≤ it.objective.lowerBound → it.objective.unitWeight = 1) :
    ∃ pre db ω cut goals ls hints core ids dgoals,
      ps'.proof.steps = ps.proof.steps ++ pre ++
        [.red (mapDomCon ω cut) ω goals, .solx ls ω, .rup (.clause cut) hints, .core core, .del ids dgoals] ∧
      db = pre.foldl (fun db st => st.apply db) ps.proof.db ∧
      (∀ g ∈ goals, ∃ (j : Nat) (it : CutItem), items[j]? = some it ∧ g.id = .specific (j + 2) ∧ ∀ junk,
        Spec.SubproofOk (db ++ [some (mapDomCon ω cut).neg] ++ junk ++ [some (Spec.orderGoal it.objective it.cost).neg])
          g.derivs) ∧
      (∀ it ∈ items, (it.cost ≤ it.objective.lowerBound ∧ it.obj.reformId = none) ∨
          (it.objective.lowerBound < it.cost ∧ it.objective.nLits = 1) →
        Spec.Rup [(mapDomCon ω cut).neg] (Spec.orderGoal it.objective it.cost)) ∧
      ∀ g ∈ dgoals, g.id = .specific 1 ∧ ∀ junk,
        Spec.SubproofOk (ps'.proof.db ++ junk ++ [some (LbCon.clause (ω.map Axm.not)).neg]) g.derivs := by
  obtain ⟨ds, ps₁, ω, h1, h2, rfl, hs, hdb, hv, hb, ha, hn⟩ := certifyPminCut_run h
  obtain ⟨G, hd, hK⟩ := S.run h1
  have F := cutFacts h2 G.state hd hK
  obtain ⟨pre, p1, p2, p3⟩ := G.writes
  refine ⟨pre, ps₁.proof.db, ω, ds.filterMap Prod.fst, cutGoals ps₁.proof.nextId 0 ds (items.map CutItem.obj) (items.map CutItem.cost),
    _, _, _, _, _, by rw [hs, p1]; rfl, p3, ?_, ?_, ?_⟩
  · intro g hg
    obtain ⟨j, it, d, q1, q2, q3⟩ := cutGoals_mem hg
    rw [Nat.zero_add] at q3
    have hi := List.mem_of_getElem? q1
    obtain ⟨hlt, he⟩ := List.getElem?_eq_some_iff.1 q1
    obtain ⟨hlt', he'⟩ := List.getElem?_eq_some_iff.1 q2
    have hdat := (List.forall₂_iff_get.1 hd).2 j hlt hlt'
    simp only [List.get_eq_getElem, he, he'] at hdat
    have hok := cutGoal_ok (ω := ω) (cut := ds.filterMap Prod.fst) q3 hdat (hK it hi)
      (fun l hl => List.mem_filterMap.2 ⟨d, List.mem_of_getElem? q2, hl⟩) (hunit it hi)
    exact ⟨j, it, q1, (hok []).1, fun junk => (hok junk).2⟩
  · intro it hi hc
    unfold Spec.Rup
    rcases hc with ⟨hc, hr⟩ | ⟨hc, hr⟩
    · have h0 : it.cost = 0 := by
        have := ((S.contract it hi).plain hr).1
        unfold CutItem.objective at hc
        omega
      refine .conflict (List.mem_cons_self ..) fun ρ _ hh => ?_
      rw [LbCon.holds_neg, LbCon.holds_iff, orderGoal_slack, h0] at hh
      have := Int.mul_nonneg (Int.natCast_nonneg it.objective.unitWeight) (Int.natCast_nonneg (Spec.objSum it.objective ρ))
      simp only [Nat.cast_zero, mul_zero, sub_zero] at hh
      exact hh this
    · obtain ⟨p, q1, q2⟩ := cutData_single h1 it hi hc hr
      have hle : it.cost ≤ p.2 := by
        obtain ⟨ρ, hρ⟩ := witnessAgrees_exists (cutBase (items.map CutItem.enc) witness) ps₁.valueMap
        have := (hK it hi).cost ρ hρ
        have h9 := objSum_le it.obj.obj ρ
        unfold Objective.total at h9
        rw [q1] at h9
        simp only [List.map_cons, List.map_nil, List.sum_cons, List.sum_nil] at h9
        omega
      refine Spec.Conflicts.forced (mapDomCon ω (ds.filterMap Prod.fst)).neg (by simp) [toAxm p.1] ?_ fun σ₁ g1 => ?_
      · intro ρ _ hh a ha
        cases List.mem_singleton.1 ha
        rw [LbCon.holds_neg, mapDom_holds, not_or] at hh
        by_contra hne
        refine hh.1 ⟨_, q2, ?_⟩
        rw [toAxm_not]
        simp only [Axm.not]
        revert hne
        cases ρ (toAxm p.1).var <;> cases (toAxm p.1).neg <;> simp
      · refine .conflict (List.mem_cons_self ..) fun ρ hr hh => ?_
        have g2 := (g1 ρ hr).2 _ (List.mem_singleton.2 rfl)
        rw [← Axm.val_eq_one, toAxm_val] at g2
        rw [LbCon.holds_neg, LbCon.holds_iff, orderGoal_slack] at hh
        have g3 : Spec.objSum it.objective ρ = p.2 := by
          unfold Spec.objSum CutItem.objective
          rw [q1, show p = (p.1, p.2) from rfl, linear_single]
          split at g2
          · rw [if_pos (by assumption)]
          · omega
        rw [g3] at hh
        have := Int.mul_le_mul_of_nonneg_left (Int.ofNat_le.2 hle) (Int.natCast_nonneg it.objective.unitWeight)
        omega
  · intro g hg
    cases List.mem_singleton.1 hg
    refine ⟨rfl, fun junk => ⟨⟨[(LbCon.clause (ω.map Axm.not)).neg, .clause (ds.filterMap Prod.fst)], ?_, exclude_rup _ _ ?_⟩, ?_⟩⟩
    · generalize hdb2 : ps'.proof.db ++ junk ++ [some (LbCon.clause (ω.map Axm.not)).neg] = db2
      have g1 : ConDb.find db2 (.last 1) = some (LbCon.clause (ω.map Axm.not)).neg := by
        unfold ConDb.find
        simp only
        rw [← hdb2, if_neg (by omega), if_pos (by simp; omega), List.length_append]
        exact ConDb.get_new _ _
      have g2 : ConDb.find db2 (.abs (ps₁.proof.db.length + 3)) = some (.clause (ds.filterMap Prod.fst)) := by
        rw [ConDb.find_abs, ← hdb2, List.append_assoc]
        refine ConDb.get_append _ ?_
        rw [hdb, ConDb.get_delete (by simp)]
        have := ConDb.get_new (ps₁.proof.db ++ [some (mapDomCon ω (ds.filterMap Prod.fst))] ++
          [some (LbCon.clause (ω.map Axm.not))]) (some (LbCon.clause (ds.filterMap Prod.fst)))
        simp only [List.length_append, List.length_cons, List.length_nil] at this
        exact this
      simp [g1, g2]
    · intro ρ hρ
      obtain ⟨g1, g2⟩ := F.mapped ρ hρ
      exact F.falsified ρ g1 g2
    · exact ⟨.clause [], by simp, fun ρ => by rw [LbCon.holds_clause]; simp⟩

namespace Example

/-- Three objectives: the encoding of the first does not have all literals yet, the second has one literal, and for the third
the output 5 stands for at least one true literal. -/
def cutItems : List CutItem :=
  [ { enc := ⟨false, 2, 0, fun _ => none, fun v => v + 1, fun _ => some [], fun _ => []⟩
      obj := ⟨.weighted 0 [(⟨0, false⟩, 2), (⟨1, false⟩, 3)] 0 0, none⟩, cost := 2
      encSum := Spec.objSum (.weighted 0 [(⟨0, false⟩, 2), (⟨1, false⟩, 3)] 0 0) },
    { enc := ⟨true, 1, 0, fun _ => none, fun v => v + 1, fun _ => some [⟨2, false⟩], fun _ => []⟩
      obj := ⟨.weighted 0 [(⟨2, true⟩, 4)] 1 0, none⟩, cost := 4
      encSum := Spec.objSum (.weighted 0 [(⟨2, true⟩, 4)] 1 0) },
    { enc := ⟨true, 2, 0, fun _ => some (⟨5, false⟩, ⟨none, some 2⟩), fun v => v + 1, fun _ => some [⟨5, true⟩],
        fun _ => [⟨5, false⟩]⟩
      obj := ⟨.unweighted 0 3 [⟨0, false⟩, ⟨1, false⟩] 2 0, none⟩, cost := 1
      encSum := Spec.objSum (.unweighted 0 3 [⟨0, false⟩, ⟨1, false⟩] 2 0) } ]

/-- A clause of the instance and the definition of the output. -/
def cutStart : PStuff :=
  { proof :=
      { db := [some (clauseCon [⟨0, false⟩, ⟨1, false⟩]),
          some ⟨[(1, ⟨.solver 0, false⟩), (1, ⟨.solver 1, false⟩), (1, ⟨.solver 5, true⟩)], 1⟩]
        steps := [], nInput := 1, nProofVars := 0 }
    valueMap := [], bounds := [], added := [] }

/-- The first and only the first variable is true. -/
def cutWitness : Assignment := [.tt, .ff, .ff, .ff, .ff]

theorem cutWitness_agrees {ρ : AnyVar → Bool} (h : Spec.WitnessAgrees (cutBase (cutItems.map CutItem.enc) cutWitness) [] ρ) :
    ρ (.solver 0) = true ∧ ρ (.solver 1) = false ∧ ρ (.solver 2) = false ∧ ρ (.solver 5) = true :=
  ⟨h 0 true (by decide) (by simp), h 1 false (by decide) (by simp), h 2 false (by decide) (by simp),
    h 5 true (by decide) (by simp)⟩

theorem cutStart_ok : Spec.CutStart cutItems cutWitness 4 cutStart where
  idx := by
    intro j it h
    match j, h with
    | 0, h => cases h; rfl
    | 1, h => cases h; rfl
    | 2, h => cases h; rfl
    | j + 3, h => simp [cutItems] at h
  state :=
    { bounds := fun _ _ _ _ _ h => by cases h
      fresh := by
        intro c hc k hm
        rw [mem_live] at hc
        simp only [cutStart, List.mem_cons, Option.some.injEq, List.not_mem_nil, or_false] at hc
        obtain ⟨p, hp, he⟩ := hm
        rcases hc with rfl | rfl
        · simp [clauseCon, LbCon.clause, toAxm] at hp
          rcases hp with rfl | rfl <;> cases he
        · simp at hp
          rcases hp with rfl | rfl | rfl <;> cases he
      keys := List.nodup_nil
      below := fun _ h => by cases h
      identical := fun _ _ h => by cases h
      solves := by
        intro ρ hw _ c hc
        obtain ⟨h0, h1, h2, h5⟩ := cutWitness_agrees hw
        rw [mem_live] at hc
        simp only [cutStart, List.mem_cons, Option.some.injEq, List.not_mem_nil, or_false] at hc
        rcases hc with rfl | rfl <;>
          simp [LbCon.Holds, LbCon.lhs, clauseCon, LbCon.clause, toAxm, Axm.val, h0, h1, h5] }
  contract := by
    intro it hi
    have hobj : ∀ ρ, Spec.WitnessAgrees (cutBase (cutItems.map CutItem.enc) cutWitness) [] ρ →
        Spec.objSum it.obj.obj ρ = it.cost := by
      intro ρ hw
      obtain ⟨h0, h1, h2, h5⟩ := cutWitness_agrees hw
      simp only [cutItems, List.mem_cons, List.not_mem_nil, or_false] at hi
      rcases hi with rfl | rfl | rfl <;>
        simp [Spec.objSum, Spec.linear, Objective.iter, Spec.LitTrue, Spec.solverAsg, h0, h1, h2]
    simp only [cutItems, List.mem_cons, List.not_mem_nil, or_false] at hi
    rcases hi with rfl | rfl | rfl
    · exact ⟨hobj, fun r h => (by cases h), fun _ => ⟨rfl, fun _ => rfl⟩, fun _ => rfl, fun h => (by cases h),
        fun h => (by cases h)⟩
    · refine ⟨hobj, fun r h => (by cases h), fun _ => ⟨rfl, fun _ => rfl⟩, fun _ => rfl, fun _ _ _ _ h => (by cases h),
        fun _ _ ls l h h' => ?_⟩
      cases h
      cases h'
      refine ⟨fun ρ hw => ?_, fun ρ _ hv => ?_⟩
      · obtain ⟨h0, h1, h2, h5⟩ := cutWitness_agrees hw
        simp [toAxm, Axm.val, h2]
      · simp only [toAxm, Axm.val] at hv
        have : ρ (.solver 2) = false := by
          cases h : ρ (.solver 2) <;> simp [h] at hv ⊢
        simp [Spec.objSum, Spec.linear, Objective.iter, Spec.LitTrue, Spec.solverAsg, this]
    · refine ⟨hobj, fun r h => (by cases h), fun _ => ⟨rfl, fun _ => rfl⟩, fun _ => rfl, fun _ _ olit defs h => ?_,
        fun h => (by cases h)⟩
      cases h
      refine ⟨fun ρ hw => ?_, 2, _, rfl, rfl, fun ρ => ?_⟩
      · obtain ⟨h0, h1, h2, h5⟩ := cutWitness_agrees hw
        simp [toAxm, Axm.val, h5]
      · rw [LbCon.slack_def]
        simp only [List.map_cons, List.map_nil, List.sum_cons, List.sum_nil, Spec.objSum, Spec.linear, Objective.iter,
          Spec.LitTrue, Spec.solverAsg, toAxm, Axm.val, Objective.lowerBound]
        rcases Bool.eq_false_or_eq_true (ρ (.solver 0)) with h0 | h0 <;>
          rcases Bool.eq_false_or_eq_true (ρ (.solver 1)) with h1 | h1 <;>
            rcases Bool.eq_false_or_eq_true (ρ (.solver 5)) with h5 | h5 <;> simp [h0, h1, h5]
  keys := fun _ h => by cases h
  extend := by
    intro it hi l hl
    simp only [cutItems, List.mem_cons, List.not_mem_nil, or_false] at hi
    rcases hi with rfl | rfl | rfl
    · cases hl
    · cases hl
    · cases List.mem_singleton.1 hl; decide

/-- The cut gets the sixth id after the definitions for the bound of the first objective. -/
example : (certifyPminCut true (cutItems.map CutItem.enc) (cutItems.map CutItem.obj) (cutItems.map CutItem.cost) cutWitness 4
    cutStart).map (fun r => (r.1, r.2.proof.db.get r.1)) = some (7, some (.clause [⟨.proof 0, true⟩, ⟨.solver 2, false⟩,
      ⟨.solver 5, true⟩])) := by decide +kernel

/-- No cost is below a lower bound from core boosting. -/
example : ∀ it ∈ cutItems, it.obj.reformId.isSome → it.cost ≤ it.objective.lowerBound → it.objective.unitWeight = 1 := by
  decide

/-- An objective with unit weight 2 and lower bound 1 from core boosting; the output 5 stands for both literals being true. -/
def unitItems : List CutItem :=
  [ { enc := ⟨true, 2, 0, fun _ => none, fun v => v + 1, fun _ => some [], fun _ => [⟨5, true⟩]⟩
      obj := ⟨.unweighted 0 2 [⟨0, false⟩, ⟨1, false⟩] 0 1, some 2⟩, cost := 1
      encSum := fun ρ => if ρ (.solver 5) then 1 else 0 } ]

/-- A core, and the reformulation of the objective by it. -/
def unitStart : PStuff :=
  { proof :=
      { db := [some (clauseCon [⟨0, false⟩, ⟨1, false⟩]),
          some ⟨[(1, ⟨.solver 0, false⟩), (1, ⟨.solver 1, false⟩), (1, ⟨.solver 5, true⟩)], 2⟩]
        steps := [], nInput := 1, nProofVars := 0 }
    valueMap := [], bounds := [], added := [] }

theorem unitWitness_agrees {ρ : AnyVar → Bool} (h : Spec.WitnessAgrees (cutBase (unitItems.map CutItem.enc) cutWitness) [] ρ) :
    ρ (.solver 0) = true ∧ ρ (.solver 1) = false ∧ ρ (.solver 5) = false :=
  ⟨h 0 true (by decide) (by simp), h 1 false (by decide) (by simp), h 5 false (by decide) (by simp)⟩

theorem unitStart_ok : Spec.CutStart unitItems cutWitness 4 unitStart where
  idx := by
    intro j it h
    match j, h with
    | 0, h => cases h; rfl
    | j + 1, h => simp [unitItems] at h
  state :=
    { bounds := fun _ _ _ _ _ h => by cases h
      fresh := by
        intro c hc k hm
        rw [mem_live] at hc
        simp only [unitStart, List.mem_cons, Option.some.injEq, List.not_mem_nil, or_false] at hc
        obtain ⟨p, hp, he⟩ := hm
        rcases hc with rfl | rfl
        · simp [clauseCon, LbCon.clause, toAxm] at hp
          rcases hp with rfl | rfl <;> cases he
        · simp at hp
          rcases hp with rfl | rfl | rfl <;> cases he
      keys := List.nodup_nil
      below := fun _ h => by cases h
      identical := fun _ _ h => by cases h
      solves := by
        intro ρ hw _ c hc
        obtain ⟨h0, h1, h5⟩ := unitWitness_agrees hw
        rw [mem_live] at hc
        simp only [unitStart, List.mem_cons, Option.some.injEq, List.not_mem_nil, or_false] at hc
        rcases hc with rfl | rfl <;>
          simp [LbCon.Holds, LbCon.lhs, clauseCon, LbCon.clause, toAxm, Axm.val, h0, h1, h5] }
  contract := by
    intro it hi
    cases List.mem_singleton.1 hi
    refine ⟨fun ρ hw => ?_, fun r h => ?_, fun h => (by cases h), fun h => (by cases h),
      fun _ h => absurd h (by decide), fun h => (by cases h)⟩
    · obtain ⟨h0, h1, h5⟩ := unitWitness_agrees hw
      simp [Spec.objSum, Spec.linear, Objective.iter, Spec.LitTrue, Spec.solverAsg, h0, h1]
    · cases h
      refine ⟨_, rfl, fun ρ => ?_⟩
      rw [LbCon.slack_def]
      simp only [List.map_cons, List.map_nil, List.sum_cons, List.sum_nil, Spec.objSum, Spec.linear, Objective.iter,
        Spec.LitTrue, Spec.solverAsg, Axm.val, Objective.lowerBound]
      rcases Bool.eq_false_or_eq_true (ρ (.solver 0)) with h0 | h0 <;>
        rcases Bool.eq_false_or_eq_true (ρ (.solver 1)) with h1 | h1 <;>
          rcases Bool.eq_false_or_eq_true (ρ (.solver 5)) with h5 | h5 <;> simp [h0, h1, h5]
  keys := fun _ h => by cases h
  extend := by
    intro it hi l hl
    cases List.mem_singleton.1 hi
    cases List.mem_singleton.1 hl; decide

end Example

/-- C51 fails for unit weights other than 1: if the cost is the lower bound found by core boosting, the subproof does not
multiply the reformulation by the unit weight, and what it derives is not a contradiction. -/
theorem pmin_cut_unit_weight :
    ∃ items witness maxEncVar ps r ω cut g rest, Spec.CutStart items witness maxEncVar ps ∧
      certifyPminCut true (items.map CutItem.enc) (items.map CutItem.obj) (items.map CutItem.cost) witness maxEncVar ps =
        some r ∧
      r.2.proof.steps = .red (mapDomCon ω cut) ω [g] :: rest ∧ g.id = .specific 2 ∧ ∃ it, items[0]? = some it ∧
        ¬ Spec.SubproofOk (ps.proof.db ++ [some (mapDomCon ω cut).neg] ++ [some (Spec.orderGoal it.objective it.cost).neg])
          g.derivs := by
  refine ⟨Example.unitItems, Example.cutWitness, 4, Example.unitStart, _,
    ([⟨0, false⟩, ⟨1, true⟩, ⟨2, true⟩, ⟨3, true⟩, ⟨4, true⟩, ⟨5, true⟩] : List Lit).map toAxm, [], _, _,
    Example.unitStart_ok, rfl, rfl, rfl, _, rfl, ?_⟩
  rintro ⟨c, h1, d, h2, h3⟩
  rw [List.getLast?_append] at h2
  simp at h2
  subst h2
  cases h1
  exact h3 (fun _ => false) (by decide)

end Scuttle
