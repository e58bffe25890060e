import Verif.Proof.RunLog
import Verif.Props.Prepro

/-!
# A whole proof (C61)
-/

set_option linter.unusedSectionVars false

namespace Scuttle

open Spec (BlockItem CutItem valuesBelow)

variable {objs : List Objective} {ext : Asg → Asg} {maxEncVar : Nat} {debug : Bool}

/-- The start of a proof: the constraints of the input, which only use the variables of the instance. -/
structure Spec.RunStart (objs : List Objective) (ext : Asg → Asg) (maxEncVar : Nat) (st : PStuff × Nat) : Prop where
  values : st.1.valueMap = []
  bounds : st.1.bounds = []
  input : ∀ c ∈ Spec.live st.1.proof.db, ∀ x, Spec.Mentions c x → ∃ v, v ≤ maxEncVar ∧ x = .solver v
  objVars : ∀ o ∈ objs, ∀ p ∈ o.iter, p.1.var ≤ maxEncVar
  same : ∀ a v, v ≤ maxEncVar → ext a v = a v
  next : maxEncVar < st.2

/-- What is expected when a solution `a` is blocked: it satisfies the input `db`, earlier points `pts` do not weakly dominate
it, its values are complete, and the encodings do what they should. -/
structure Spec.RoundOk (objs : List Objective) (ext : Asg → Asg) (maxEncVar : Nat) (debug : Bool) (db : ConDb AnyVar)
    (pts : List (List Int)) (items : List BlockItem) (witness : Assignment) (a : Asg) (st : PStuff × Nat) : Prop where
  objectives : (items.map fun it => it.obj.obj) = objs
  idx : ∀ (j : Nat) it, items[j]? = some it → it.obj.obj.idx = j
  extend : ∀ it ∈ items, ∀ l ∈ it.enc.view.extend witness, maxEncVar < l.var
  unbuffered : ∀ it ∈ items, Spec.Unbuffered it
  values : Spec.HasValues ext a (cutBase (items.map fun it => it.enc.view) witness) st
  allowed : Spec.RunAllowed objs ext a (cutBase (items.map fun it => it.enc.view) witness) maxEncVar debug items st
  feasible : ∀ c ∈ Spec.live db, c.Holds (Spec.onSolver a)
  better : ∀ p ∈ pts, ¬ Spec.WeaklyDominates p (Spec.sums objs a)

/-- A proof that is written from the state `st₀` on: lines of the SAT solver, extensions of encodings, and permanent blocking
of solutions without enumeration, in any order; with the costs of the blocked solutions. -/
inductive Spec.ProofRun (objs : List Objective) (ext : Asg → Asg) (maxEncVar : Nat) (debug : Bool) (st₀ : PStuff × Nat) :
    PStuff × Nat → List (List Int) → Prop
  | start : ProofRun objs ext maxEncVar debug st₀ st₀ []
  | solver {st : PStuff × Nat} {pts : List (List Int)} {ps : PStuff} : ProofRun objs ext maxEncVar debug st₀ st pts →
      Spec.SolverOk objs st.1 ps → ProofRun objs ext maxEncVar debug st₀ (ps, st.2) pts
  | extend {st st' : PStuff × Nat} {pts : List (List Int)} : ProofRun objs ext maxEncVar debug st₀ st pts →
      Spec.GrowOk objs ext st st' → ProofRun objs ext maxEncVar debug st₀ st' pts
  | block {st st' : PStuff × Nat} {pts : List (List Int)} {items : List BlockItem} {witness : Assignment} {a : Asg}
      {cls : Clause} {cutId id : Nat} : ProofRun objs ext maxEncVar debug st₀ st pts →
      Spec.RoundOk objs ext maxEncVar debug st₀.1.proof.db pts items witness a st →
      permanentBlock debug (items.map BlockItem.enc) (items.map BlockItem.obj) (items.map BlockItem.cost) witness maxEncVar st =
        some (cls, cutId, id, st') →
      ProofRun objs ext maxEncVar debug st₀ st' (pts ++ [items.map fun it => (it.cost : Int)])

/-- What holds along a run: each solution that is not weakly dominated by a blocked one satisfies all constraints. -/
structure RunInv (objs : List Objective) (ext : Asg → Asg) (maxEncVar : Nat) (db : ConDb AnyVar) (st : PStuff × Nat)
    (pts : List (List Int)) : Prop where
  keys : ∀ p ∈ st.1.valueMap, ∀ v, p.1.var = .solver v → maxEncVar < v
  next : maxEncVar < st.2
  state : ∀ a, (∀ c ∈ Spec.live db, c.Holds (Spec.onSolver a)) → (∀ p ∈ pts, ¬ Spec.WeaklyDominates p (Spec.sums objs a)) →
    Spec.LogState objs (valuesBelow ext a st.2) st.1

theorem runInv_start {st : PStuff × Nat} (S : Spec.RunStart objs ext maxEncVar st) :
    RunInv objs ext maxEncVar st.1.proof.db st [] where
  keys := by rw [S.values]; intro p hp; cases hp
  next := S.next
  state := fun a ha _ => by
    refine ⟨(by rw [Spec.BoundsDefined, S.bounds]; intro _ _ _ _ _ h; cases h), fun c hc k hm => ?_, (by rw [S.values]; exact .nil),
      (by rw [S.values]; intro p hp; cases hp), (by rw [S.values]; intro _ _ h; cases h), fun ρ hw _ c hc => ?_⟩
    · obtain ⟨v, -, h⟩ := S.input c hc _ hm
      cases h
    · refine (LbCon.holds_congr fun x hm => ?_).1 (ha c hc)
      obtain ⟨v, hv, rfl⟩ := S.input c hc _ hm
      rw [agrees_valuesBelow.1 hw v (Nat.lt_of_le_of_lt hv S.next) (by rw [S.values]; intro p hp; cases hp), S.same a v hv]
      rfl

/-- Sums of objectives are those of the solution. -/
theorem objSum_values {m : List (Axm AnyVar × ProofVal)} {a : Asg} {n : Nat} {ρ : AnyVar → Bool}
    (hobj : ∀ o ∈ objs, ∀ p ∈ o.iter, p.1.var ≤ maxEncVar) (hsame : ∀ a v, v ≤ maxEncVar → ext a v = a v)
    (hkeys : ∀ p ∈ m, ∀ v, p.1.var = .solver v → maxEncVar < v) (hn : maxEncVar < n)
    (hw : Spec.WitnessAgrees (valuesBelow ext a n) m ρ) :
    (objs.map fun o => (Spec.objSum o ρ : Int)) = Spec.sums objs a := by
  refine List.map_congr_left fun o ho => ?_
  unfold Spec.objSum
  rw [linear_congr fun p hp => ?_]
  have hle := hobj o ho p hp
  rw [← hsame a p.1.var hle]
  refine agrees_valuesBelow.1 hw _ (Nat.lt_of_le_of_lt hle hn) fun q hq he => ?_
  have := hkeys q hq _ he
  omega

/-- Blocking a solution writes correct lines, and only takes away what the solution weakly dominates. -/
theorem round_keeps {db : ConDb AnyVar} {pts : List (List Int)} {items : List BlockItem} {witness : Assignment} {a₀ : Asg}
    {st st' : PStuff × Nat} {cls : Clause} {cutId id : Nat} (hobj : ∀ o ∈ objs, ∀ p ∈ o.iter, p.1.var ≤ maxEncVar)
    (hsame : ∀ a v, v ≤ maxEncVar → ext a v = a v) (I : RunInv objs ext maxEncVar db st pts)
    (R : Spec.RoundOk objs ext maxEncVar debug db pts items witness a₀ st)
    (h : permanentBlock debug (items.map BlockItem.enc) (items.map BlockItem.obj) (items.map BlockItem.cost) witness maxEncVar
      st = some (cls, cutId, id, st')) :
    Spec.Writes (Spec.ParetoOrder objs) st.1 st'.1 ∧
    RunInv objs ext maxEncVar db st' (pts ++ [items.map fun it => (it.cost : Int)]) ∧
    (items.map fun it => (it.cost : Int)) = Spec.sums objs a₀ := by
  have hl₀ := I.state a₀ R.feasible R.better
  obtain rfl := R.objectives
  have hidx : ∀ it ∈ items, (items.map fun it => it.obj.obj)[it.obj.obj.idx]? = some it.obj.obj := by
    intro it hi
    obtain ⟨i, hlt, rfl⟩ := List.getElem_of_mem hi
    rw [R.idx i items[i] (List.getElem?_eq_getElem hlt), List.getElem?_map, List.getElem?_eq_getElem hlt]
    rfl
  have S : Spec.BlockStart items witness maxEncVar debug st :=
    ⟨R.idx, R.values.state hl₀, I.keys, R.extend, runAllowed_block R.allowed hidx hl₀⟩
  obtain ⟨b1, -, -, -, b5⟩ := block_clause_accepted_partial S R.unbuffered h
  unfold permanentBlock at h
  obtain ⟨⟨cls₀, ids, st₁⟩, h1, h⟩ := Option.bind_eq_some_iff.1 h
  obtain ⟨⟨cutId₀, ps₂⟩, h2, h⟩ := Option.bind_eq_some_iff.1 h
  simp only [Option.some.injEq, Prod.mk.injEq] at h
  obtain ⟨rfl, rfl, rfl, rfl⟩ := h
  obtain ⟨G, hK, -, -⟩ := dominatedBlock_spec h1 S.state hidx R.unbuffered S.allowed
  have C := S.cut G hK
  have hobjs : (items.map BlockItem.cut).map CutItem.objective = items.map fun it => it.obj.obj := by
    rw [List.map_map]; rfl
  have hencs : (items.map BlockItem.cut).map CutItem.enc = (items.map BlockItem.enc).map BlockEnc.view := by
    rw [List.map_map, List.map_map]; rfl
  have hpobj : (items.map BlockItem.cut).map CutItem.obj = items.map BlockItem.obj := by rw [List.map_map]; rfl
  have hcost : (items.map BlockItem.cut).map CutItem.cost = items.map BlockItem.cost := by rw [List.map_map]; rfl
  have h2' := h2
  rw [← hencs, ← hpobj, ← hcost] at h2'
  obtain ⟨-, w2, w3, w4, -, cut, w6, w7, -⟩ := pmin_cut_accepted C h2'
  rw [hobjs] at w3
  obtain ⟨ds, ps₃, ω, q1, -, q3, -, q5, q6, q7, -, q9⟩ := certifyPminCut_run h2
  -- the state after the round
  let ps₄ : PStuff := (ps₂.push (.rup (clauseCon cls₀) ((ids ++ [cutId₀]).map CId.abs))).2.addCert cls₀ (ps₂.proof.db.length + 1)
  have hdb : ps₄.proof.db = ps₂.proof.db ++ [some (clauseCon cls₀)] := rfl
  have hk : Spec.Keeps ps₂ ps₄ := fun i c hc => by rw [hdb]; exact ConDb.get_append _ hc
  have hold : ∀ i c, ps₂.proof.db.get i = some c → i ≠ cutId₀ → c ∈ Spec.live ps₃.proof.db := by
    intro i c hc hne
    by_cases hi : i ∈ [ps₃.proof.db.length + 2, ps₃.proof.db.length + 1]
    · rw [q5, ConDb.get_deleted hi] at hc; cases hc
    · rw [q5, ConDb.get_delete hi] at hc
      have hb := ConDb.get_lt hc
      simp only [List.length_append, List.length_cons, List.length_nil] at hb
      simp only [List.mem_cons, List.not_mem_nil, or_false, not_or] at hi
      rw [List.append_assoc, List.append_assoc] at hc
      rw [ConDb.get_append_le _ (by omega)] at hc
      exact mem_live_of_get hc
  have hk3 : ∀ p ∈ ps₃.valueMap, ∀ v, p.1.var = .solver v → maxEncVar < v := by
    have G3 := cutData_state (base := cutBase (items.map fun it => it.enc.view) witness) q1 hidx G.state
    intro p hp v hv
    rcases G.solver p (G3.solver p hp v hv) v hv with hp | hlt
    · exact I.keys p hp v hv
    · exact hlt
  obtain ⟨-, hnext⟩ := dominatedBlock_state h1 R.allowed hidx hl₀
  have hnext' : maxEncVar < st₁.2 := Nat.lt_of_lt_of_le I.next hnext
  refine ⟨b1, ⟨?_, hnext', fun a ha hp => ?_⟩, ?_⟩
  · show ∀ p ∈ ps₂.valueMap, _
    rw [q6]
    exact hk3
  · have hl := (dominatedBlock_state h1 R.allowed hidx (I.state a ha fun p hp' => hp p (List.mem_append_left _ hp'))).1
    have G3 := cutData_state q1 hidx hl
    have hnd := hp _ (List.mem_append_right _ (List.mem_singleton.2 rfl))
    show Spec.LogState (items.map fun it => it.obj.obj) (valuesBelow ext a st₁.2) ps₄
    have hsol : ∀ ρ, Spec.WitnessAgrees (valuesBelow ext a st₁.2) ps₃.valueMap ρ →
        Spec.Meaning (items.map fun it => it.obj.obj) ps₃.valueMap ρ → ∀ c ∈ Spec.live ps₄.proof.db, c.Holds ρ := by
      intro ρ hw hm
      have hsum := objSum_values hobj hsame hk3 hnext' hw
      rw [List.map_map] at hsum
      have h3 := G3.state.solves ρ hw hm
      have hcls : (clauseCon cls₀).Holds ρ := by
        by_contra hc
        refine hnd ?_
        rw [← hsum]
        refine b5 ρ (fun i c hi hid hg => ?_) hc
        refine h3 c (hold i c ?_ hi)
        change ps₄.proof.db.get i = some c at hg
        have := ConDb.get_lt hg
        change i ≠ ps₂.proof.db.length + 1 at hid
        rw [show (ps₄.proof.db.length) = ps₂.proof.db.length + 1 by rw [hdb]; simp] at this
        rw [hdb, ConDb.get_append_le _ (by omega)] at hg
        exact hg
      have hcut : (LbCon.clause cut).Holds ρ := by
        by_contra hc
        refine hnd ?_
        rw [← hsum]
        have := w7 ρ (fun i c hi hg => h3 c (hold i c hg hi)) hc
        rw [List.map_map, List.map_map] at this
        exact this
      intro c hc
      rw [hdb] at hc
      rcases (live_append _ _).1 hc with hc | rfl
      · obtain ⟨i, hi⟩ := get_of_mem_live hc
        by_cases he : i = cutId₀
        · subst he
          rw [w6] at hi
          cases hi
          exact hcut
        · exact h3 c (hold i c hi he)
      · exact hcls
    refine ⟨?_, ?_, ?_, ?_, ?_, ?_⟩
    · exact w3.mono hk rfl (le_refl _) fun _ h => h
    · intro c hc k hm
      rw [hdb] at hc
      rcases (live_append _ _).1 hc with hc | rfl
      · exact w4 c hc k hm
      · obtain ⟨p, hp, he⟩ := hm
        simp only [clauseCon, LbCon.clause, List.map_map, List.mem_map] at hp
        obtain ⟨l, -, rfl⟩ := hp
        cases he
    · show (ps₂.valueMap.map fun p => p.1.var).Nodup
      rw [q6]; exact G3.state.keys
    · show ∀ p ∈ ps₂.valueMap, ∀ k, p.1.var = .proof k → k < ps₂.proof.nProofVars
      rw [q6, q9]; exact G3.state.below
    · show ∀ this that, (this, ProofVal.identical that) ∈ ps₂.valueMap → ∀ p ∈ ps₂.valueMap, p.1.var ≠ .solver that.var
      rw [q6]; exact G3.state.identical
    · show ∀ ρ, Spec.WitnessAgrees _ ps₂.valueMap ρ → Spec.Meaning _ ps₂.valueMap ρ → _
      rw [q6]
      exact hsol
  · -- the costs are those of the solution
    obtain ⟨ρ, hw⟩ := witnessAgrees_exists (cutBase (items.map fun it => it.enc.view) witness) st₁.1.valueMap
    have hw0 : Spec.WitnessAgrees (cutBase (items.map fun it => it.enc.view) witness) st.1.valueMap ρ := G.agrees ρ hw
    have hw' : Spec.WitnessAgrees (valuesBelow ext a₀ st.2) st.1.valueMap ρ :=
      agrees_valuesBelow.2 fun v hv hk => hw0 v _ (R.values v hv hk) hk
    rw [← objSum_values hobj hsame I.keys I.next hw', List.map_map]
    refine List.map_congr_left fun it hi => ?_
    simp only [Function.comp]
    rw [(hK it hi).cost ρ hw]

theorem proofRun_inv {st₀ st : PStuff × Nat} {pts : List (List Int)} (S : Spec.RunStart objs ext maxEncVar st₀)
    (h : Spec.ProofRun objs ext maxEncVar debug st₀ st pts) :
    Spec.Writes (Spec.ParetoOrder objs) st₀.1 st.1 ∧ RunInv objs ext maxEncVar st₀.1.proof.db st pts ∧
    ∀ p ∈ pts, ∃ a, (∀ c ∈ Spec.live st₀.1.proof.db, c.Holds (Spec.onSolver a)) ∧ Spec.sums objs a = p := by
  induction h with
  | start => exact ⟨Spec.Writes.refl _ _, runInv_start S, fun _ h => by cases h⟩
  | @solver st pts ps _ hs ih =>
    obtain ⟨h1, I, h3⟩ := ih
    exact ⟨h1.trans hs.writes, ⟨by show ∀ p ∈ ps.valueMap, _; rw [hs.values]; exact I.keys, I.next,
      fun a ha hp => hs.state (I.state a ha hp)⟩, h3⟩
  | extend _ hg ih =>
    obtain ⟨h1, I, h3⟩ := ih
    exact ⟨h1.trans hg.writes, ⟨by rw [hg.values]; exact I.keys, Nat.lt_of_lt_of_le I.next hg.next,
      fun a ha hp => hg.state (I.state a ha hp)⟩, h3⟩
  | @block st st' pts items witness a cls cutId id _ R hb ih =>
    obtain ⟨h1, I, h3⟩ := ih
    obtain ⟨g1, g2, g3⟩ := round_keeps S.objVars S.same I R hb
    refine ⟨h1.trans g1, g2, fun p hp => ?_⟩
    rcases List.mem_append.1 hp with hp | hp
    · exact h3 p hp
    · cases List.mem_singleton.1 hp
      exact ⟨a, R.feasible, g3.symm⟩

/-- C61: all lines of a proof are correct, from the first to the last one. -/
theorem whole_proof_accepted {st₀ st : PStuff × Nat} {pts : List (List Int)} (S : Spec.RunStart objs ext maxEncVar st₀)
    (h : Spec.ProofRun objs ext maxEncVar debug st₀ st pts) : Spec.Writes (Spec.ParetoOrder objs) st₀.1 st.1 :=
  (proofRun_inv S h).1

/-- C61: if a contradiction is derived in the end, then each assignment that satisfies the input is weakly dominated by the
costs of a solution that was blocked. -/
theorem whole_proof_covers {st₀ st : PStuff × Nat} {pts : List (List Int)} (S : Spec.RunStart objs ext maxEncVar st₀)
    (h : Spec.ProofRun objs ext maxEncVar debug st₀ st pts) {c : LbCon AnyVar} (hc : c ∈ Spec.live st.1.proof.db)
    (hbot : Spec.Contradiction c) (a : Asg) (ha : ∀ c ∈ Spec.live st₀.1.proof.db, c.Holds (Spec.onSolver a)) :
    ∃ p ∈ pts, Spec.WeaklyDominates p (Spec.sums objs a) := by
  by_contra hn
  simp only [not_exists, not_and] at hn
  obtain ⟨-, I, -⟩ := proofRun_inv S h
  have hl := I.state a ha hn
  refine hbot _ (hl.solves (recorded objs st.1.valueMap (Spec.onSolver (ext a))) (agrees_valuesBelow.2 fun v _ hk => ?_)
    (recorded_meaning hl.keys hl.identical fun o ho q hq p hp he => ?_) c hc)
  · rw [recorded_other hk]; rfl
  · have h1 := I.keys p hp _ he
    have h2 := S.objVars o ho q hq
    omega

/-- C61: the costs that are blocked are those of solutions. -/
theorem whole_proof_points {st₀ st : PStuff × Nat} {pts : List (List Int)} (S : Spec.RunStart objs ext maxEncVar st₀)
    (h : Spec.ProofRun objs ext maxEncVar debug st₀ st pts) {p : List Int} (hp : p ∈ pts) :
    ∃ a, (∀ c ∈ Spec.live st₀.1.proof.db, c.Holds (Spec.onSolver a)) ∧ Spec.sums objs a = p :=
  (proofRun_inv S h).2.2 p hp

/-- C61: what the checker concludes from the lines alone: if a contradiction is derived in the end, then for each assignment
that satisfies the input, the proof has a solution line that some assignment at least as good agrees with. -/
theorem whole_proof_checked {st₀ st : PStuff × Nat} {pts : List (List Int)} (S : Spec.RunStart objs ext maxEncVar st₀)
    (h : Spec.ProofRun objs ext maxEncVar debug st₀ st pts) {c : LbCon AnyVar} (hc : c ∈ Spec.live st.1.proof.db)
    (hbot : Spec.Contradiction c) (ρ : AnyVar → Bool) (hρ : ∀ c ∈ Spec.live st₀.1.proof.db, c.Holds ρ) :
    ∃ ρ' ls full, Spec.ParetoOrder objs ρ' ρ ∧ ProofStep.solx ls full ∈ st.1.proof.steps ∧ ∀ l ∈ ls, ρ' l.var = !l.neg := by
  obtain ⟨new, h1, h2, h3⟩ := whole_proof_accepted S h
  obtain ⟨ρ', g1, g2 | ⟨ls, full, g2, g3⟩⟩ := accepted_covers (fun a => paretoOrder_solver objs a a rfl)
    (fun a b c => WeaklyDominates.trans) h2 ρ hρ
  · rw [← h3] at g2
    exact absurd (g2 c hc) (hbot ρ')
  · exact ⟨ρ', ls, full, g1, by rw [h1]; exact List.mem_append_right _ g2, g3⟩

/-- C61: if moreover no blocked point weakly dominates another one, then the blocked points are the Pareto front. -/
theorem whole_proof_front {st₀ st : PStuff × Nat} {pts : List (List Int)} (S : Spec.RunStart objs ext maxEncVar st₀)
    (h : Spec.ProofRun objs ext maxEncVar debug st₀ st pts) {c : LbCon AnyVar} (hc : c ∈ Spec.live st.1.proof.db)
    (hbot : Spec.Contradiction c) (hmin : ∀ p ∈ pts, ∀ q ∈ pts, Spec.WeaklyDominates p q → p = q) (p : List Int) :
    p ∈ pts ↔ ∃ a, (∀ c ∈ Spec.live st₀.1.proof.db, c.Holds (Spec.onSolver a)) ∧ Spec.sums objs a = p ∧
      ∀ a', (∀ c ∈ Spec.live st₀.1.proof.db, c.Holds (Spec.onSolver a')) → Spec.WeaklyDominates (Spec.sums objs a') p →
        Spec.sums objs a' = p := by
  constructor
  · intro hp
    obtain ⟨a, ha, he⟩ := whole_proof_points S h hp
    refine ⟨a, ha, he, fun a' ha' hd => ?_⟩
    obtain ⟨q, hq, hd'⟩ := whole_proof_covers S h hc hbot a' ha'
    obtain rfl := hmin q hq p hp (WeaklyDominates.trans hd' hd)
    exact WeaklyDominates.antisymm hd hd'
  · rintro ⟨a, ha, rfl, hopt⟩
    obtain ⟨q, hq, hd⟩ := whole_proof_covers S h hc hbot a ha
    obtain ⟨a', ha', rfl⟩ := whole_proof_points S h hq
    rw [← hopt a' ha' hd]
    exact hq

/-! ## Example -/

/-- The constraints of an encoding with two outputs. -/
def outCon₁ : LbCon AnyVar := ⟨[(1, ⟨.solver 0, false⟩), (1, ⟨.solver 1, false⟩), (1, ⟨.solver 2, true⟩)], 1⟩
def outCon₂ : LbCon AnyVar := ⟨[(1, ⟨.solver 0, true⟩), (1, ⟨.solver 1, true⟩), (2, ⟨.solver 2, false⟩)], 2⟩
def outCon₃ : LbCon AnyVar := ⟨[(1, ⟨.solver 0, false⟩), (1, ⟨.solver 1, false⟩), (2, ⟨.solver 3, true⟩)], 2⟩

/-- The values of the outputs. -/
def outExt (a : Asg) : Asg := fun v => if v = 2 then a 0 || a 1 else if v = 3 then a 0 && a 1 else a v

/-- The state once the encoding is built. -/
def outGrown : PStuff :=
  ((missStart.write (.red outCon₁ [⟨.solver 2, true⟩] [])).write (.red outCon₂ [⟨.solver 2, false⟩] [])).write
    (.red outCon₃ [⟨.solver 3, true⟩] [])

/-- Two objectives, for the solutions with costs 0 and 4, and 1 and 0. -/
def outItem (cost : Nat) : BlockItem where
  enc := ⟨⟨true, 2, 0, reifEnc.details, reifEnc.nextHigher, fun v => if v = 0 then some [⟨2, true⟩, ⟨3, true⟩] else none,
    fun w => [⟨2, !(w[0]? == some .tt || w[1]? == some .tt)⟩, ⟨3, !(w[0]? == some .tt && w[1]? == some .tt)⟩]⟩, false,
    fun _ st => st⟩
  obj := ⟨reifObj, none⟩
  cost := cost
  encSum := Spec.objSum reifObj

def outItems₁ : List BlockItem := [outItem 0, blockItem₁]
def outItems₂ : List BlockItem := [outItem 1, { blockItem₁ with cost := 0 }]

def outRound (items : List BlockItem) (w : Assignment) (st : PStuff × Nat) : Option (Clause × Nat × Nat × (PStuff × Nat)) :=
  permanentBlock true (items.map BlockItem.enc) (items.map BlockItem.obj) (items.map BlockItem.cost) w 1 st

def outSt₁ : PStuff × Nat := ((outRound outItems₁ [.ff, .ff] (outGrown, 4)).map fun r => r.2.2.2).getD (missStart, 0)
def outSt₂ : PStuff × Nat := ((outRound outItems₂ [.ff, .tt] outSt₁).map fun r => r.2.2.2).getD (missStart, 0)

/-- The state in the end: the SAT solver finds that nothing is left. -/
def outEnd : PStuff := outSt₂.1.write (.rup (.clause []) [.abs 7, .abs 2, .abs 15, .abs 8])

theorem outGrown_mem {c : LbCon AnyVar} (h : c ∈ Spec.live outGrown.proof.db) : c = outCon₁ ∨ c = outCon₂ ∨ c = outCon₃ := by
  rw [mem_live] at h
  simpa [outGrown, missStart, PStuff.write, Pf.write, ProofStep.apply] using h

theorem outStart : Spec.RunStart blockObjs outExt 1 (missStart, 2) where
  values := rfl
  bounds := rfl
  input := fun c h => by cases h
  objVars := by
    intro o ho p hp
    simp only [blockObjs, List.mem_cons, List.not_mem_nil, or_false] at ho
    rcases ho with rfl | rfl
    · simp only [reifObj, Objective.iter, List.mem_cons, List.not_mem_nil, or_false] at hp
      rcases hp with rfl | rfl <;> decide
    · cases List.mem_singleton.1 hp; decide
  same := fun a v hv => by
    unfold outExt
    rw [if_neg (by omega), if_neg (by omega)]
  next := by decide

theorem blockObjs_vars : ∀ v, 1 < v → ∀ o ∈ blockObjs, ∀ p ∈ o.iter, p.1.var ≠ v := by
  intro v hv o ho p hp he
  have := outStart.objVars o ho p hp
  omega

/-- The lines of the encoding are correct. -/
theorem outGrow : Spec.GrowOk blockObjs outExt (missStart, 2) (outGrown, 4) where
  writes := by
    refine ⟨_, rfl, ⟨?_, ?_, ?_, trivial⟩, rfl⟩
    · intro ρ _ _
      rw [subst_single]
      refine ⟨fun d hd => (by cases hd), ?_, paretoOrder_update (blockObjs_vars 2 (by decide)) ρ _⟩
      cases h0 : ρ (.solver 0) <;> cases h1 : ρ (.solver 1) <;>
        simp [LbCon.Holds, LbCon.lhs, Axm.val, outCon₁, h0, h1]
    · intro ρ _ hn
      rw [subst_single]
      refine ⟨fun d hd => ?_, ?_, paretoOrder_update (blockObjs_vars 2 (by decide)) ρ _⟩
      · have : d = outCon₁ := by
          rw [mem_live] at hd
          simpa [missStart, ProofStep.apply] using hd
        subst this
        revert hn
        cases h0 : ρ (.solver 0) <;> cases h1 : ρ (.solver 1) <;> cases h2 : ρ (.solver 2) <;>
          simp [LbCon.Holds, LbCon.lhs, Axm.val, outCon₁, outCon₂, h0, h1, h2]
      · cases h0 : ρ (.solver 0) <;> cases h1 : ρ (.solver 1) <;>
          simp [LbCon.Holds, LbCon.lhs, Axm.val, outCon₂, h0, h1]
    · intro ρ hρ _
      rw [subst_single]
      refine ⟨fun d hd => ?_, ?_, paretoOrder_update (blockObjs_vars 3 (by decide)) ρ _⟩
      · refine (LbCon.holds_congr fun v hm => ?_).1 (hρ d hd)
        rw [Function.update_of_ne]
        rintro rfl
        have : d = outCon₁ ∨ d = outCon₂ := by
          rw [mem_live] at hd
          simpa [missStart, ProofStep.apply] using hd
        obtain ⟨p, hp, he⟩ := hm
        rcases this with rfl | rfl <;>
          (simp only [outCon₁, outCon₂, List.mem_cons, List.not_mem_nil, or_false] at hp
           rcases hp with rfl | rfl | rfl <;> cases he)
      · cases h0 : ρ (.solver 0) <;> cases h1 : ρ (.solver 1) <;>
          simp [LbCon.Holds, LbCon.lhs, Axm.val, outCon₃, h0, h1]
  keeps := fun i c h => by
    have := ConDb.get_lt h
    simp [missStart] at this
    omega
  values := rfl
  bounds := rfl
  certified := ⟨[], [], rfl, rfl, fun _ h => by cases h⟩
  nVars := le_refl _
  next := by decide
  fresh := by
    intro c hc _ k hm
    obtain ⟨p, hp, he⟩ := hm
    rcases outGrown_mem hc with rfl | rfl | rfl <;>
      (simp only [outCon₁, outCon₂, outCon₃, List.mem_cons, List.not_mem_nil, or_false] at hp
       rcases hp with rfl | rfl | rfl <;> cases he)
  sound := by
    intro a ρ hw _ c hc
    rw [agrees_valuesBelow] at hw
    have h0 : ρ (.solver 0) = a 0 := hw 0 (by decide) (fun _ h => by cases h)
    have h1 : ρ (.solver 1) = a 1 := hw 1 (by decide) (fun _ h => by cases h)
    have h2 : ρ (.solver 2) = (a 0 || a 1) := hw 2 (by decide) (fun _ h => by cases h)
    have h3 : ρ (.solver 3) = (a 0 && a 1) := hw 3 (by decide) (fun _ h => by cases h)
    rcases outGrown_mem hc with rfl | rfl | rfl <;> cases h : a 0 <;> cases h' : a 1 <;>
      simp [LbCon.Holds, LbCon.lhs, Axm.val, outCon₁, outCon₂, outCon₃, h0, h1, h2, h3, h, h']

/-- The values of the solutions with costs 0 and 4, and 1 and 0. -/
theorem outBase₁ : cutBase (outItems₁.map fun it => it.enc.view) [.ff, .ff] = [.ff, .ff, .ff, .ff] := by decide
theorem outBase₂ : cutBase (outItems₂.map fun it => it.enc.view) [.ff, .tt] = [.ff, .tt, .tt, .ff] := by decide

theorem outSum₀ (ρ : AnyVar → Bool) : Spec.objSum reifObj ρ = (if ρ (.solver 0) then 1 else 0) + if ρ (.solver 1) then 1 else 0 := by
  simp [Spec.objSum, Spec.linear, reifObj, Objective.iter, Spec.LitTrue, Spec.solverAsg]

theorem outSum₁ (ρ : AnyVar → Bool) : Spec.objSum blockItem₁.obj.obj ρ = if ρ (.solver 1) then 0 else 4 := by
  cases h : ρ (.solver 1) <;>
    simp [Spec.objSum, Spec.linear, blockItem₁, Objective.iter, Spec.LitTrue, Spec.solverAsg, h]

theorem outRound₁ : ∃ cls cutId id, outRound outItems₁ [.ff, .ff] (outGrown, 4) = some (cls, cutId, id, outSt₁) := by
  have h : (outRound outItems₁ [.ff, .ff] (outGrown, 4)).isSome = true := by decide +kernel
  obtain ⟨⟨cls, cutId, id, st⟩, hr⟩ := Option.isSome_iff_exists.1 h
  exact ⟨cls, cutId, id, by unfold outSt₁; rw [hr]; rfl⟩

theorem outRound₂ : ∃ cls cutId id, outRound outItems₂ [.ff, .tt] outSt₁ = some (cls, cutId, id, outSt₂) := by
  have h : (outRound outItems₂ [.ff, .tt] outSt₁).isSome = true := by decide +kernel
  obtain ⟨⟨cls, cutId, id, st⟩, hr⟩ := Option.isSome_iff_exists.1 h
  exact ⟨cls, cutId, id, by unfold outSt₂; rw [hr]; rfl⟩

/-- The first solution can be blocked. -/
theorem outOk₁ : Spec.RoundOk blockObjs outExt 1 true [] [] outItems₁ [.ff, .ff] (fun _ => false) (outGrown, 4) where
  objectives := rfl
  idx := by
    intro j it h
    match j, h with
    | 0, h => cases h; rfl
    | 1, h => cases h; rfl
    | j + 2, h => simp [outItems₁] at h
  extend := by
    intro it hi l hl
    simp only [outItems₁, List.mem_cons, List.not_mem_nil, or_false] at hi
    rcases hi with rfl | rfl
    · simp only [outItem, List.mem_cons, List.not_mem_nil, or_false] at hl
      rcases hl with rfl | rfl <;> decide
    · cases hl
  unbuffered := by
    intro it hi
    simp only [outItems₁, List.mem_cons, List.not_mem_nil, or_false] at hi
    rcases hi with rfl | rfl <;> intro _ _ h <;> cases h
  values := by
    rw [outBase₁]
    intro v hv _
    match v, hv with
    | 0, _ => rfl
    | 1, _ => rfl
    | 2, _ => rfl
    | 3, _ => rfl
    | n + 4, h => exact absurd h (by simp)
  allowed := by
    rw [outBase₁]
    have hval : ∀ ρ, Spec.WitnessAgrees [.ff, .ff, .ff, .ff] outGrown.valueMap ρ →
        ρ (.solver 0) = false ∧ ρ (.solver 1) = false := fun ρ hw =>
      ⟨hw 0 false rfl (fun _ h => by cases h), hw 1 false rfl (fun _ h => by cases h)⟩
    unfold outItems₁ Spec.RunAllowed
    rw [if_pos (by decide)]
    refine ⟨⟨fun ρ hw => ?_, fun _ h => (by cases h), fun _ => ⟨rfl, fun _ => rfl⟩, fun _ => rfl, fun _ h => absurd h (by decide),
      fun _ h => absurd h (by decide)⟩, by decide, ?_⟩
    · obtain ⟨h0, h1⟩ := hval ρ hw
      show Spec.objSum reifObj ρ = 0
      rw [outSum₀, h0, h1]; rfl
    unfold Spec.RunAllowed
    rw [if_neg (by decide)]
    refine ⟨⟨Spec.Writes.refl _ _, Spec.Keeps.refl _, rfl, rfl, ⟨[], [], by simp [blockItem₁], rfl, fun _ h => by cases h⟩, le_refl _, le_refl _,
      fun c hc hn => absurd hc hn, fun _ _ _ h => h⟩, ?_, ⟨fun ρ hw => ?_, fun _ h => (by cases h), fun _ => ⟨rfl, fun _ => rfl⟩,
      fun _ => rfl, fun _ _ _ _ h => (by cases h), fun _ _ ls l h h' => ?_⟩, by decide, fun as h => ?_⟩
    · intro v hv _
      match v, hv with
      | 0, _ => rfl
      | 1, _ => rfl
      | 2, _ => rfl
      | 3, _ => rfl
      | n + 4, h => exact absurd h (by simp [blockItem₁])
    · rw [outSum₁, (hval ρ hw).2]; rfl
    · cases h
      cases h'
      refine ⟨fun ρ hw => ?_, fun ρ _ h => ?_⟩
      · simp [toAxm, Axm.val, (hval ρ hw).2]
      · rw [outSum₁]
        cases h1 : ρ (.solver 1)
        · simp [blockItem₁]
        · simp [toAxm, Axm.val, h1] at h
    · cases h
      refine ⟨fun a h => ?_, fun h => absurd rfl h⟩
      cases h
      refine ⟨⟨fun _ p hp => ?_, fun _ ls h => ?_, fun _ _ _ h => by cases h⟩, trivial⟩
      · cases List.mem_singleton.1 hp; rfl
      · cases h; rfl
  feasible := fun c h => by cases h
  better := fun p h => by cases h

theorem outSt₁_facts : outSt₁.2 = 4 ∧ outSt₁.1.valueMap = [] ∧ outSt₁.1.proof.db = [some outCon₁, some outCon₂, some outCon₃,
    none, none, some (.clause [⟨.solver 1, false⟩]), some (.clause [⟨.solver 1, false⟩])] ∧ outSt₁.1.bounds.length = 0 := by
  decide +kernel

theorem outSt₁_contract : Spec.ReifContract outSt₁.1.proof.db (outItem 1).enc.view (outItem 1).obj.obj (outItem 1).cost
    (Spec.objSum reifObj) 0 2 := by
  have hget : ∀ i c, reifStart.proof.db.get i = some c → outSt₁.1.proof.db.get i = some c := by
    intro i c h
    rw [outSt₁_facts.2.2.1]
    have hlt := ConDb.get_lt h
    have h3 : reifStart.proof.db.length = 3 := rfl
    match i, hlt, h with
    | 1, _, h => exact h
    | 2, _, h => exact h
    | 3, _, h => exact h
    | n + 4, hlt, _ => omega
  obtain ⟨k1, k2, k3, k4, k5, k6⟩ := reifStart_contract
  refine ⟨k1, k2, fun val olit defs d h h' => ?_, fun val olit defs d h h' => ?_, k5, k6⟩
  · obtain ⟨c, h1, h2⟩ := k3 val olit defs d h h'
    exact ⟨c, hget _ _ h1, h2⟩
  · obtain ⟨c, h1, h2⟩ := k4 val olit defs d h h'
    exact ⟨c, hget _ _ h1, h2⟩

theorem outSt₁_fresh : Spec.FreshVar blockObjs outSt₁.1 4 where
  db := by
    intro c hc ⟨p, hp, he⟩
    rw [outSt₁_facts.2.2.1, mem_live] at hc
    simp only [List.mem_cons, List.not_mem_nil, or_false, Option.some.injEq, reduceCtorEq, false_or] at hc
    rcases hc with rfl | rfl | rfl | rfl | rfl <;>
      simp only [outCon₁, outCon₂, outCon₃, LbCon.clause, List.map_cons, List.map_nil, List.mem_cons, List.not_mem_nil,
        or_false] at hp
    · rcases hp with rfl | rfl | rfl <;> cases he
    · rcases hp with rfl | rfl | rfl <;> cases he
    · rcases hp with rfl | rfl | rfl <;> cases he
    · subst hp; cases he
    · subst hp; cases he
  objs := blockObjs_vars 4 (by decide)
  keys := by rw [outSt₁_facts.2.1]; intro _ h; cases h
  that := by rw [outSt₁_facts.2.1]; intro _ _ h; cases h

/-- The second solution can be blocked. -/
theorem outOk₂ : Spec.RoundOk blockObjs outExt 1 true [] [[0, 4]] outItems₂ [.ff, .tt] (fun v => v == 1) outSt₁ where
  objectives := rfl
  idx := by
    intro j it h
    match j, h with
    | 0, h => cases h; rfl
    | 1, h => cases h; rfl
    | j + 2, h => simp [outItems₂] at h
  extend := by
    intro it hi l hl
    simp only [outItems₂, List.mem_cons, List.not_mem_nil, or_false] at hi
    rcases hi with rfl | rfl
    · simp only [outItem, List.mem_cons, List.not_mem_nil, or_false] at hl
      rcases hl with rfl | rfl <;> decide
    · cases hl
  unbuffered := by
    intro it hi
    simp only [outItems₂, List.mem_cons, List.not_mem_nil, or_false] at hi
    rcases hi with rfl | rfl <;> intro _ _ h <;> cases h
  values := by
    rw [outBase₂]
    intro v hv _
    rw [outSt₁_facts.1] at hv
    match v, hv with
    | 0, _ => rfl
    | 1, _ => rfl
    | 2, _ => rfl
    | 3, _ => rfl
    | n + 4, h => exact absurd h (by simp)
  allowed := by
    rw [outBase₂]
    have hval : ∀ m ρ, (∀ p ∈ m, ∀ v < 4, p.1.var ≠ .solver v) → Spec.WitnessAgrees [.ff, .tt, .tt, .ff] m ρ →
        ρ (.solver 0) = false ∧ ρ (.solver 1) = true ∧ ρ (.solver 2) = true := fun m ρ hm hw =>
      ⟨hw 0 false rfl (fun p hp => hm p hp 0 (by decide)), hw 1 true rfl (fun p hp => hm p hp 1 (by decide)),
        hw 2 true rfl (fun p hp => hm p hp 2 (by decide))⟩
    have hm₁ : ∀ p ∈ outSt₁.1.valueMap, ∀ v < 4, p.1.var ≠ .solver v := by
      rw [outSt₁_facts.2.1]; intro _ h; cases h
    have hnew : Spec.NewVar blockObjs [.ff, .tt, .tt, .ff] 1 outSt₁.1 outSt₁.2 := by
      rw [outSt₁_facts.1]
      exact ⟨outSt₁_fresh, fun b => by simp, by decide⟩
    unfold outItems₂ Spec.RunAllowed
    rw [if_neg (by decide)]
    refine ⟨⟨Spec.Writes.refl _ _, Spec.Keeps.refl _, rfl, rfl, ⟨[], [], by simp [outItem], rfl, fun _ h => by cases h⟩,
      le_refl _, le_refl _, fun c hc hn => absurd hc hn, fun _ _ _ h => h⟩, ?_, ⟨fun ρ hw => ?_, fun _ h => (by cases h),
      fun _ => ⟨rfl, fun _ => rfl⟩, fun _ => rfl, fun _ _ olit defs h => ?_, fun h => (by cases h)⟩, by decide, fun as h => ?_⟩
    · intro v hv _
      change v < outSt₁.2 at hv
      rw [outSt₁_facts.1] at hv
      match v, hv with
      | 0, _ => rfl
      | 1, _ => rfl
      | 2, _ => rfl
      | 3, _ => rfl
      | n + 4, h => exact absurd h (by simp)
    · obtain ⟨h0, h1, -⟩ := hval _ ρ hm₁ hw
      show Spec.objSum reifObj ρ = 1
      rw [outSum₀, h0, h1]; rfl
    · cases h
      refine ⟨fun ρ hw => ?_, 1, outCon₁, rfl, ?_, fun ρ => ?_⟩
      · simp [toAxm, Axm.val, (hval _ ρ hm₁ hw).2.2]
      · show outSt₁.1.proof.db.get 1 = _
        rw [outSt₁_facts.2.2.1]; rfl
      · obtain ⟨c, h1, h2⟩ := reifStart_contract.onlyIfDef 1 _ _ 1 rfl rfl
        cases h1
        have := h2 ρ
        simpa [outItem, outCon₁, reifObj, Objective.lowerBound] using this
    · cases h
      refine ⟨fun a h => (by cases h), fun _ => ⟨by decide, by decide, ⟨_, _, _, outSt₁_contract⟩, ?_, hnew, fun id ps hc => ?_⟩⟩
      · refine ⟨fun _ => ⟨⟨⟨_, rfl⟩, ⟨_, rfl⟩, trivial⟩, fun a ha => ?_⟩, fun h => by cases h⟩
        cases ha
        show (2 : Nat) ≠ outSt₁.2 ∧ ∀ p ∈ outSt₁.1.valueMap, _
        rw [outSt₁_facts.1, outSt₁_facts.2.1]
        exact ⟨by decide, fun _ h => by cases h⟩
      · unfold Spec.RunAllowed
        rw [if_pos (by decide)]
        refine ⟨⟨fun ρ hw => ?_, fun _ h => (by cases h), fun _ => ⟨rfl, fun _ => rfl⟩, fun _ => rfl, fun _ h => absurd h (by decide),
          fun _ h => absurd h (by decide)⟩, by decide, trivial⟩
        obtain ⟨⟨new, hv, hn⟩, -⟩ := certifyAssumpReification_frame hc
        change ps.valueMap = outSt₁.1.valueMap ++ new at hv
        have hm₂ : ∀ p ∈ ps.valueMap, ∀ v < 4, p.1.var ≠ .solver v := by
          intro p hp v hv' he
          rw [hv, outSt₁_facts.2.1, List.nil_append] at hp
          rcases hn p hp with h | ⟨k, h⟩
          · rw [h] at he
            change AnyVar.solver outSt₁.2 = _ at he
            rw [outSt₁_facts.1] at he
            cases he
            omega
          · rw [h] at he; cases he
        obtain ⟨-, h1, -⟩ := hval _ ρ hm₂ hw
        show Spec.objSum blockItem₁.obj.obj ρ = 0
        rw [outSum₁, h1]; rfl
  feasible := fun c h => by cases h
  better := by
    intro p hp
    cases List.mem_singleton.1 hp
    intro h
    have hs : Spec.sums blockObjs (fun v => v == 1) = [1, 0] := by decide
    rw [hs] at h
    exact absurd (List.forall₂_cons.1 (List.forall₂_cons.1 h).2).1 (by decide)

theorem outSt₂_facts : outSt₂.1.proof.db.get 7 = some (.clause [⟨.solver 1, false⟩]) ∧
    outSt₂.1.proof.db.get 2 = some outCon₂ ∧ outSt₂.1.proof.db.get 15 = some (.clause [⟨.solver 4, false⟩]) ∧
    outSt₂.1.proof.db.get 8 = some (.clause [⟨.solver 4, true⟩, ⟨.solver 2, true⟩]) ∧ outSt₂.1.bounds.length = 0 := by
  decide +kernel

/-- The SAT solver derives the empty clause. -/
theorem solver_empty {ps : PStuff} (g1 : ps.proof.db.get 7 = some (.clause [⟨.solver 1, false⟩]))
    (g2 : ps.proof.db.get 2 = some outCon₂) (g3 : ps.proof.db.get 15 = some (.clause [⟨.solver 4, false⟩]))
    (g4 : ps.proof.db.get 8 = some (.clause [⟨.solver 4, true⟩, ⟨.solver 2, true⟩])) (g5 : ps.bounds.length = 0) :
    Spec.SolverOk blockObjs ps (ps.write (.rup (.clause []) [.abs 7, .abs 2, .abs 15, .abs 8])) where
  lines := by
    refine ⟨[.rup (.clause []) [.abs 7, .abs 2, .abs 15, .abs 8]], rfl, ⟨⟨[_, _, _, _], by
      simp only [List.mapM_cons, List.mapM_nil, ConDb.find_abs, g1, g2, g3, g4]; rfl, ?_⟩, trivial⟩, rfl, fun s hs => by
      cases List.mem_singleton.1 hs; trivial⟩
    refine .propagate (c := .clause [⟨.solver 1, false⟩]) (.solver 1) true (by simp) (fun ρ _ h => ?_) ?_
    · rw [LbCon.holds_clause] at h; simpa using h
    refine .propagate (c := outCon₂) (.solver 2) true (by simp) (fun ρ hr h => ?_) ?_
    · have h1 : ρ (.solver 1) = true := hr _ _ (by simp)
      by_contra h2
      simp only [Bool.not_eq_true] at h2
      revert h
      cases h0 : ρ (.solver 0) <;> simp [LbCon.Holds, LbCon.lhs, Axm.val, outCon₂, h0, h1, h2]
    refine .propagate (c := .clause [⟨.solver 4, false⟩]) (.solver 4) true (by simp) (fun ρ _ h => ?_) ?_
    · rw [LbCon.holds_clause] at h; simpa using h
    refine .conflict (c := .clause [⟨.solver 4, true⟩, ⟨.solver 2, true⟩]) (by simp) fun ρ hr h => ?_
    have h4 : ρ (.solver 4) = true := hr _ _ (by simp)
    have h2 : ρ (.solver 2) = true := hr _ _ (by simp [Function.update])
    rw [LbCon.holds_clause] at h
    simp [h4, h2] at h
  values := rfl
  bounds := rfl
  nVars := rfl
  defs := by
    intro k lit d₁ d₂ h
    rw [List.length_eq_zero_iff.1 g5] at h
    cases h
  fresh := by
    intro c hc hn k hm
    rcases (live_append _ _).1 (show c ∈ Spec.live (ps.proof.db ++ [some (LbCon.clause [])]) from hc) with hc | rfl
    · exact absurd hc hn
    · obtain ⟨p, hp, -⟩ := hm
      cases hp

theorem outSolver : Spec.SolverOk blockObjs outSt₂.1 outEnd := by
  obtain ⟨g1, g2, g3, g4, g5⟩ := outSt₂_facts
  exact solver_empty g1 g2 g3 g4 g5

/-- The whole proof: the encoding, two solutions, and the end of the search. -/
theorem outRun : Spec.ProofRun blockObjs outExt 1 true (missStart, 2) (outEnd, outSt₂.2) [[0, 4], [1, 0]] := by
  obtain ⟨_, _, _, h1⟩ := outRound₁
  obtain ⟨_, _, _, h2⟩ := outRound₂
  exact .solver (.block (.block (.extend .start outGrow) outOk₁ h1) outOk₂ h2) outSolver

example (a : Asg) : ∃ p ∈ [[0, 4], [1, 0]], Spec.WeaklyDominates p (Spec.sums blockObjs a) :=
  whole_proof_covers outStart outRun (c := .clause []) ((live_append _ _).2 (Or.inr rfl))
    (fun ρ h => by obtain ⟨_, h, _⟩ := (LbCon.holds_clause _ _).1 h; cases h) a fun c h => by cases h

example : ∀ p ∈ [[0, 4], [1, 0]], ∀ q ∈ [[0, 4], [1, (0 : Int)]], Spec.WeaklyDominates p q → p = q := by
  intro p hp q hq h
  simp only [List.mem_cons, List.not_mem_nil, or_false] at hp hq
  rcases hp with rfl | rfl <;> rcases hq with rfl | rfl
  · rfl
  · exact absurd (List.forall₂_cons.1 h).2 fun h => absurd (List.forall₂_cons.1 h).1 (by decide)
  · exact absurd (List.forall₂_cons.1 h).1 (by decide)
  · rfl

end Scuttle
