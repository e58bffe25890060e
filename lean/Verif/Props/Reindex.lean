import Verif.Proof.Reindex
import Verif.Props.Prepro

/-!
# C22: reindexing
-/

namespace Scuttle

open Spec

variable {inst inst' : Instance} {r : Reindexer}

/-- An instance without any literal. -/
def NoLits (inst : Instance) : Prop := (∀ c ∈ inst.clauses, c = []) ∧ ∀ o ∈ inst.objs, objLits o = []

/-- Forall₂ from the right. -/
theorem forall₂_right {α β} {R : α → β → Prop} {l : List α} {l' : List β} (h : List.Forall₂ R l l') {b : β} (hb : b ∈ l') :
    ∃ a ∈ l, R a b := by
  induction h with
  | nil => simp at hb
  | @cons a b' as bs hab _ ih =>
    rcases List.mem_cons.1 hb with rfl | h'
    · exact ⟨a, by simp, hab⟩
    · obtain ⟨q, hq, hh⟩ := ih h'
      exact ⟨q, by simp [hq], hh⟩

/-- Forall₂ from the left. -/
theorem forall₂_left {α β} {R : α → β → Prop} {l : List α} {l' : List β} (h : List.Forall₂ R l l') {a : α} (ha : a ∈ l) :
    ∃ b ∈ l', R a b := forall₂_right h.flip ha

/-- **C22.** `reindexing` succeeds exactly if the instance has a literal; otherwise it panics. -/
theorem reindexing_none_iff (inst : Instance) : reindexing inst = none ↔ NoLits inst := by
  constructor
  · intro h
    unfold reindexing at h
    obtain ⟨a1, a2, a3⟩ := reindexObjs_spec inst.objs _ (Reindexer.new_inv inst.vm.maxOrigVar)
    obtain ⟨b1, b2, b3⟩ := reindexClauses_spec inst.clauses _ a1
    simp only at h
    generalize reindexObjs inst.objs (Reindexer.new inst.vm.maxOrigVar) = q at *
    obtain ⟨objs, r1⟩ := q
    simp only at h a1 a2 a3 b1 b2 b3
    generalize reindexClauses inst.clauses r1 = q2 at *
    obtain ⟨clauses, r2⟩ := q2
    simp only at h b1 b2 b3
    split at h
    · next hv =>
      simp only [Reindexer.maxVar] at hv
      split at hv
      · next hz =>
        have hno : ∀ l l', ¬ Renamed r2 l l' := by
          intro l l' hr
          have h1 := (b1.inv _ _).1 hr.1
          have := (List.getElem?_eq_some_iff.1 h1).1
          rw [b1.len] at this
          omega
        constructor
        · intro c hc
          obtain ⟨c', -, hcc⟩ := forall₂_left b3 hc
          cases hcc with
          | nil => rfl
          | cons hl _ => exact absurd hl (hno _ _)
        · intro o ho
          obtain ⟨o', -, ts, -, hts⟩ := forall₂_left a3 ho
          rw [← objLits_iter]
          cases ht : o.iter with
          | nil => rfl
          | cons t ts' =>
            rw [ht] at hts
            cases hts with
            | cons hl _ => exact absurd (hl.2.ext b2) (hno _ _)
      · simp at hv
    · simp [VarManager.new] at h
  · rintro ⟨h1, h2⟩
    have ho : ∀ os : List Objective, (∀ o ∈ os, objLits o = []) → ∀ r : Reindexer, (reindexObjs os r).2 = r := by
      intro os
      induction os with
      | nil => intro _ r; rfl
      | cons o os ih =>
        intro h r
        have hi : o.iter = [] := by
          have := h o (by simp)
          rw [← objLits_iter] at this
          simpa using this
        simp only [reindexObjs, hi, reindexTerms]
        exact ih (fun o ho => h o (by simp [ho])) r
    have hc : ∀ cs : List Clause, (∀ c ∈ cs, c = []) → ∀ r : Reindexer, (reindexClauses cs r).2 = r := by
      intro cs
      induction cs with
      | nil => intro _ r; rfl
      | cons c cs ih =>
        intro h r
        simp only [reindexClauses, h c (by simp), reindexClause]
        exact ih (fun c hc => h c (by simp [hc])) r
    unfold reindexing
    simp only [ho _ h2, hc _ h1]
    rfl

/-- **C22.** The reindexed instance is as the solvers need it, its variables are exactly the numbers below `next_var`. -/
theorem reindexing_wellFormed (hn : NoDupLits inst) (h : reindexing inst = some (r, inst')) :
    WellFormed inst' ∧ NoDupLits inst' ∧ OrigDetermines inst' ∧
    inst'.vm.maxOrigVar + 1 = inst'.vm.nextVar ∧ inst'.objs.map Objective.offset = inst.objs.map Objective.offset ∧
    inst'.objs.map Objective.idx = inst.objs.map Objective.idx := by
  have hd := reindexing_data h
  have hpos := hd.pos
  have hlt : ∀ l l', Renamed r l l' → l'.var ≤ r.nextVar - 1 := by
    intro l l' hr
    have h1 := (hd.inv.inv _ _).1 hr.1
    have := (List.getElem?_eq_some_iff.1 h1).1
    rw [hd.inv.len] at this
    omega
  have hob : ∀ o' ∈ inst'.objs, (objLits o').Nodup ∧ ∀ l ∈ objLits o', l.var ≤ r.nextVar - 1 := by
    intro o' ho'
    obtain ⟨o, ho, ts, rfl, hts⟩ := forall₂_right hd.objs ho'
    have hnd := renamed_nodup hd.inv hts (by rw [objLits_iter]; exact hn o ho)
    rw [(objective_new_spec ts _ _ hnd).2.1]
    refine ⟨hnd, fun l hl => ?_⟩
    obtain ⟨t, ht, rfl⟩ := List.mem_map.1 hl
    obtain ⟨t0, -, -, hr⟩ := forall₂_right hts ht
    exact hlt _ _ hr
  refine ⟨⟨?_, ?_, ?_, ?_⟩, fun o ho => (hob o ho).1, ?_, ?_, ?_⟩
  · rw [hd.vm]
  · rw [hd.vm]; simp only; omega
  · intro c' hc' l hl
    rw [hd.vm]
    obtain ⟨c, -, hcc⟩ := forall₂_right hd.clauses hc'
    obtain ⟨l0, -, hr⟩ := forall₂_right hcc hl
    exact hlt _ _ hr
  · intro o ho l hl
    rw [hd.vm]
    exact (hob o ho).2 l hl
  · intro s t _ _ hst
    have : (problem inst').costs s = (problem inst').costs t := by
      unfold Problem.costs problem
      simp only [List.map_map]
      apply List.map_congr_left
      intro o ho
      simp only [Function.comp_apply]
      have hs : ∀ l ∈ objLits o, s l.var = t l.var := by
        intro l hl
        apply hst
        rw [hd.vm]
        exact (hob o ho).2 l hl
      rw [objValue_internal, objValue_internal, internalCost_eq, internalCost_eq]
      congr 3
      rw [← objLits_iter] at hs
      generalize o.iter = ts at hs
      induction ts with
      | nil => rfl
      | cons q ts ih =>
        obtain ⟨l, w⟩ := q
        simp only [List.map_cons, List.forall_mem_cons] at hs
        simp only [linear, LitTrue, hs.1, ih hs.2]
    rw [this]
    exact List.forall₂_refl _
  · rw [hd.vm]; simp only; omega
  · have ho := hd.objs
    clear hob
    generalize hos : inst.objs = os at ho
    generalize inst'.objs = os' at ho
    have hn' : ∀ o ∈ os, (objLits o).Nodup := by rw [← hos]; exact hn
    clear hos
    induction ho with
    | nil => exact ⟨rfl, rfl⟩
    | cons hl _ ih =>
      obtain ⟨ih1, ih2⟩ := ih (fun o ho => hn' o (by simp [ho]))
      obtain ⟨-, h1, h2⟩ := (pullAsg_corr r (fun _ => false) (fun _ => false)).obj hd.inv (hn' _ (by simp)) hl
      simp only [List.map_cons, ih1, ih2, h1, h2, and_self]

/-- The costs of an assignment of the reindexed instance are the internal costs and offsets of the original instance. -/
theorem corr_costs (hn : NoDupLits inst) (hd : ReindexData inst r inst') {s s' : Asg} (hc : Corr r s s') :
    (problem inst').costs s' = inst.objs.map fun o => o.offset + (internalCost o s : Int) := by
  unfold Problem.costs problem
  simp only [List.map_map]
  have ho := hd.objs
  generalize hos : inst.objs = os at ho
  generalize inst'.objs = os' at ho
  have hn' : ∀ o ∈ os, (objLits o).Nodup := by rw [← hos]; exact hn
  clear hos
  induction ho with
  | nil => rfl
  | cons hl _ ih =>
    simp only [List.map_cons, ih (fun o ho => hn' o (by simp [ho])), Function.comp_apply]
    rw [(hc.obj hd.inv (hn' _ (by simp)) hl).1]

/-- **C22.** Solutions of the reindexed instance, mapped back: any values of the original variables that agree with the
converted solution belong to a feasible assignment of the original instance, whose internal costs are those found for
the reindexed instance. -/
theorem reindexing_solution (hn : NoDupLits inst) (h : reindexing inst = some (r, inst')) {s' : Asg} {sol : Assignment}
    (hf : (problem inst').Feasible s') (hsol : Shows inst' sol s') {s : Asg} (hs : Extends s (r.convert sol)) :
    ∃ t, SameOrig inst s t ∧ (problem inst).Feasible t ∧
      (problem inst').costs s' = inst.objs.map fun o => o.offset + (internalCost o t : Int) := by
  have hd := reindexing_data h
  have hc := pullAsg_corr r s' s
  refine ⟨pullAsg r s' s, ?_, (hc.feasible hd).1 hf, corr_costs hn hd hc⟩
  intro v hv
  unfold pullAsg
  split
  · next o ho =>
    apply hs
    rw [convert_get hd.inv]
    refine ⟨by rw [hd.old]; exact hv, o, ho, ?_⟩
    apply hsol.2
    have h1 := (List.getElem?_eq_some_iff.1 ((hd.inv.inv _ _).1 ho)).1
    rw [hd.inv.len] at h1
    rw [hd.vm]; simp only; omega
  · rfl

/-- **C22.** Each feasible assignment of the original instance arises in this way. -/
theorem reindexing_complete (hn : NoDupLits inst) (h : reindexing inst = some (r, inst')) {s : Asg}
    (hs : (problem inst).Feasible s) :
    ∃ s' sol, (problem inst').Feasible s' ∧ Shows inst' sol s' ∧ Extends s (r.convert sol) ∧
      (problem inst').costs s' = inst.objs.map fun o => o.offset + (internalCost o s : Int) := by
  have hd := reindexing_data h
  have hc := pushAsg_corr hd.inv s
  refine ⟨pushAsg r s, _, (hc.feasible hd).2 hs, (shows_iff _ _).2 rfl, ?_, corr_costs hn hd hc⟩
  intro v b hv
  rw [convert_get hd.inv] at hv
  obtain ⟨-, o, ho, hb⟩ := hv
  have h1 := (List.getElem?_eq_some_iff.1 ((hd.inv.inv _ _).1 ho)).1
  rw [hd.inv.len] at h1
  have h2 : (Assignment.ofModel (pushAsg r s) (inst'.vm.maxOrigVar + 1))[o]? = some (TV.ofBool (pushAsg r s o)) := by
    have h3 : o < inst'.vm.maxOrigVar + 1 := by rw [hd.vm]; simp only; omega
    simp [Assignment.ofModel, h3]
  rw [h2] at hb
  rw [hc v o ho]
  generalize pushAsg r s o = b' at hb
  cases b <;> cases b' <;> simp_all [TV.ofBool]

/-- Comparing costs is comparing internal costs, for common weights that are not zero. -/
theorem weaklyDominates_internal (hp : PosUnit inst) (s t : Asg) :
    WeaklyDominates (inst.objs.map fun o => o.offset + (internalCost o s : Int))
      (inst.objs.map fun o => o.offset + (internalCost o t : Int)) ↔
    WeaklyDominates ((problem inst).costs s) ((problem inst).costs t) := by
  unfold WeaklyDominates Problem.costs problem
  simp only [List.map_map]
  have hp' : ∀ o ∈ inst.objs, 0 < o.unitWeight := by
    intro o ho
    cases o with
    | weighted => simp [Objective.unitWeight]
    | unweighted off w lits i lb => exact hp off w lits i lb ho
    | constant => simp [Objective.unitWeight]
  generalize inst.objs = os at hp'
  induction os with
  | nil => simp
  | cons o os ih =>
    simp only [List.map_cons, List.forall₂_cons, ih (fun o ho => hp' o (by simp [ho])), Function.comp_apply]
    rw [objValue_internal, objValue_internal]
    have := hp' o (by simp)
    have h2 : (o.unitWeight : Int) * (internalCost o s : Int) ≤ o.unitWeight * (internalCost o t : Int) ↔
        (internalCost o s : Int) ≤ internalCost o t := by
      constructor
      · intro h
        exact le_of_mul_le_mul_left h (by omega)
      · intro h
        exact mul_le_mul_of_nonneg_left h (by omega)
    constructor
    · rintro ⟨h3, h4⟩
      exact ⟨by rw [add_le_add_iff_left, h2]; omega, h4⟩
    · rintro ⟨h3, h4⟩
      rw [add_le_add_iff_left, h2] at h3
      exact ⟨by omega, h4⟩

theorem dominates_iff (a b : List Int) : Dominates a b ↔ WeaklyDominates a b ∧ ¬ WeaklyDominates b a := by
  constructor
  · rintro ⟨h1, h2⟩; exact ⟨h1, fun h3 => h2 (WeaklyDominates.antisymm h1 h3)⟩
  · rintro ⟨h1, h2⟩; exact ⟨h1, fun h3 => h2 (h3 ▸ List.forall₂_refl _)⟩

/-- Corresponding assignments are Pareto-optimal together. -/
theorem corr_paretoOptimal (hn : NoDupLits inst) (hp : PosUnit inst) (hd : ReindexData inst r inst') {s s' : Asg}
    (hc : Corr r s s') : (problem inst').ParetoOptimal s' ↔ (problem inst).ParetoOptimal s := by
  constructor
  · rintro ⟨h1, h2⟩
    refine ⟨(hc.feasible hd).1 h1, fun t ht hdom => ?_⟩
    have hct := pushAsg_corr hd.inv t
    apply h2 _ ((hct.feasible hd).2 ht)
    rw [dominates_iff, corr_costs hn hd hct, corr_costs hn hd hc, weaklyDominates_internal hp, weaklyDominates_internal hp,
      ← dominates_iff]
    exact hdom
  · rintro ⟨h1, h2⟩
    refine ⟨(hc.feasible hd).2 h1, fun t' ht' hdom => ?_⟩
    have hct := pullAsg_corr r t' s
    apply h2 _ ((hct.feasible hd).1 ht')
    rw [dominates_iff, corr_costs hn hd hct, corr_costs hn hd hc, weaklyDominates_internal hp, weaklyDominates_internal hp,
      ← dominates_iff] at hdom
    exact hdom

/-- **C22.** Pareto-optimal solutions of the reindexed instance, mapped back, are Pareto-optimal. -/
theorem reindexing_pareto (hn : NoDupLits inst) (hp : PosUnit inst) (h : reindexing inst = some (r, inst')) {s' : Asg}
    {sol : Assignment} (hf : (problem inst').ParetoOptimal s') (hsol : Shows inst' sol s') {s : Asg}
    (hs : Extends s (r.convert sol)) :
    ∃ t, SameOrig inst s t ∧ (problem inst).ParetoOptimal t ∧
      (problem inst').costs s' = inst.objs.map fun o => o.offset + (internalCost o t : Int) := by
  have hd := reindexing_data h
  have hc := pullAsg_corr r s' s
  refine ⟨pullAsg r s' s, ?_, (corr_paretoOptimal hn hp hd hc).1 hf, corr_costs hn hd hc⟩
  intro v hv
  unfold pullAsg
  split
  · next o ho =>
    apply hs
    rw [convert_get hd.inv]
    refine ⟨by rw [hd.old]; exact hv, o, ho, ?_⟩
    apply hsol.2
    have h1 := (List.getElem?_eq_some_iff.1 ((hd.inv.inv _ _).1 ho)).1
    rw [hd.inv.len] at h1
    rw [hd.vm]; simp only; omega
  · rfl

/-- **C22.** The front of the reindexed instance is the front of the original one in internal costs (with offset). -/
theorem reindexing_front_internal (hn : NoDupLits inst) (hp : PosUnit inst) (h : reindexing inst = some (r, inst'))
    (v : List Int) : (problem inst').NonDominated v ↔
      ∃ s, (problem inst).ParetoOptimal s ∧ (inst.objs.map fun o => o.offset + (internalCost o s : Int)) = v := by
  have hd := reindexing_data h
  constructor
  · rintro ⟨s', hs', rfl⟩
    have hc := pullAsg_corr r s' s'
    exact ⟨_, (corr_paretoOptimal hn hp hd hc).1 hs', (corr_costs hn hd hc).symm⟩
  · rintro ⟨s, hs, rfl⟩
    have hc := pushAsg_corr hd.inv s
    exact ⟨_, (corr_paretoOptimal hn hp hd hc).2 hs, corr_costs hn hd hc⟩

/-- All common weights are one, so that internal and external costs only differ by the offsets. -/
def UnitOne (inst : Instance) : Prop := ∀ off w lits i lb, .unweighted off w lits i lb ∈ inst.objs → w = 1

/-- **C22.** If all common weights are one the front is unchanged. -/
theorem reindexing_front (hn : NoDupLits inst) (hu : UnitOne inst) (h : reindexing inst = some (r, inst'))
    (v : List Int) : (problem inst').NonDominated v ↔ (problem inst).NonDominated v := by
  rw [reindexing_front_internal hn (fun off w lits i lb ho => by rw [hu off w lits i lb ho]; omega) h]
  have : ∀ s, (inst.objs.map fun o => o.offset + (internalCost o s : Int)) = (problem inst).costs s := by
    intro s
    unfold Problem.costs problem
    simp only [List.map_map]
    apply List.map_congr_left
    intro o ho
    simp only [Function.comp_apply, objValue_internal]
    cases o with
    | weighted => simp [Objective.unitWeight]
    | unweighted off w lits i lb => rw [Objective.unitWeight, hu off w lits i lb ho]; simp
    | constant => simp [Objective.unitWeight]
  simp only [this]
  rfl

/-! ## Running a solver on the reindexed instance -/

/-- No literal has weight zero. -/
def NoZeroWeights (inst : Instance) : Prop := ∀ off lits i lb, .weighted off lits i lb ∈ inst.objs → ∀ t ∈ lits, 0 < t.2

theorem reindexing_posUnit (hw : NoZeroWeights inst) (h : reindexing inst = some (r, inst')) : PosUnit inst' := by
  intro off w lits i lb ho'
  obtain ⟨o, ho, ts, he, hts⟩ := forall₂_right (reindexing_data h).objs ho'
  obtain ⟨l, hl⟩ := objective_new_unit he.symm
  obtain ⟨t, ht, htw, -⟩ := forall₂_right hts hl
  simp only at htw
  rw [htw]
  cases o with
  | weighted off lits i lb => exact hw off lits i lb ho t ht
  | unweighted off w lits i lb =>
    simp only [Objective.iter, List.mem_map] at ht
    obtain ⟨_, -, rfl⟩ := ht
    simp
  | constant => simp [Objective.iter] at ht

theorem reindexing_posWeights (hn : NoDupLits inst) (hw : NoZeroWeights inst) (h : reindexing inst = some (r, inst')) :
    PosWeights inst' := by
  have hd := reindexing_data h
  intro off lits i lb ho' t' ht'
  obtain ⟨o, ho, ts, he, hts⟩ := forall₂_right hd.objs ho'
  have hnd := renamed_nodup hd.inv hts (by rw [objLits_iter]; exact hn o ho)
  obtain rfl := (objective_new_weights hnd _ _).1 _ _ _ _ he.symm
  obtain ⟨t, ht, htw, -⟩ := forall₂_right hts ht'
  rw [htw]
  exact iter_pos hw ho t ht

theorem reindexing_fits (hn : NoDupLits inst) (hp : PosUnit inst) (hfits : FitsIsize inst)
    (h : reindexing inst = some (r, inst')) : FitsIsize inst' := by
  have hd := reindexing_data h
  intro s' hs' o' ho'
  have hc := pullAsg_corr r s' s'
  obtain ⟨o, ho, hoo⟩ := forall₂_right hd.objs ho'
  obtain ⟨h1, h2, -⟩ := hc.obj hd.inv (hn o ho) hoo
  have h3 := hfits _ ((hc.feasible hd).1 hs') o ho
  rw [objValue_internal] at h3
  rw [h1, h2]
  have h4 : 0 < o.unitWeight := by
    cases o with
    | weighted => simp [Objective.unitWeight]
    | unweighted off w lits i lb => exact hp off w lits i lb ho
    | constant => simp [Objective.unitWeight]
  generalize internalCost o (pullAsg r s' s') = c at *
  have h5 : c ≤ o.unitWeight * c := Nat.le_mul_of_pos_left c h4
  have h6 : (c : Int) ≤ o.unitWeight * (c : Int) := by exact_mod_cast h5
  omega

/-- The reindexed instance is one the solvers can handle, for all kinds of enumeration. -/
theorem reindexing_setting (hn : NoDupLits inst) (hp : PosUnit inst) (hw : NoZeroWeights inst) (hfits : FitsIsize inst)
    (h : reindexing inst = some (r, inst')) {env : Env} (ho : CorrectOracle env) (opts : KernelOptions) :
    Setting inst' defaultBlockingClause opts env where
  wf := (reindexing_wellFormed hn h).1
  fits := reindexing_fits hn hp hfits h
  unit := reindexing_posUnit hw h
  enum := by
    have hwf := reindexing_wellFormed hn h
    cases opts.enumeration with
    | noEnum => exact .noEnum _
    | solutions l => exact .solutions _ _ (default_goodBlocking hwf.1 hwf.2.2.1)
    | pmcss l =>
      refine .pmcss _ _ fun o ho l hl => ?_
      have h1 := hwf.1.objs o ho l hl
      have h2 := hwf.1.enc
      have h3 := hwf.2.2.2.1
      omega
  oracle := ho
  tight _ := ⟨(reindexing_wellFormed hn h).2.1, reindexing_posWeights hn hw h⟩

section Run

variable {P C : Type} [UbEnc P] [UbEnc C] [LawfulUbEnc P] [LawfulUbEnc C]
variable {env : Env} {s : Slv P C} {opts : KernelOptions} {limits : Limits}

/-- **C22, with a run in between.** A completed run of any algorithm on the reindexed instance lists exactly the internal
costs (with offsets) of the Pareto-optimal assignments of the original instance, and each solution listed, after its
conversion, belongs to a Pareto-optimal assignment with these costs, whatever values unassigned variables get. -/
theorem reindexed_front_exact (alg : Alg) (hn : NoDupLits inst) (hp : PosUnit inst) (hw : NoZeroWeights inst)
    (hfits : FitsIsize inst) (h : reindexing inst = some (r, inst')) (ho : CorrectOracle env) (hl : LimitsFine env limits)
    (h0 : Started alg inst' defaultBlockingClause opts s) (fuel : Nat)
    (hdone : (alg.solve fuel limits env s).1 = .ok ()) :
    (∀ v, v ∈ (alg.solve fuel limits env s).2.front.map NonDomPoint.costs ↔
      ∃ t, (problem inst).ParetoOptimal t ∧ (inst.objs.map fun o => o.offset + (internalCost o t : Int)) = v) ∧
    ∀ pt ∈ (alg.solve fuel limits env s).2.front, ∀ x ∈ pt.sols, ∀ u, Extends u (r.convert x) →
      ∃ t, SameOrig inst u t ∧ (problem inst).ParetoOptimal t ∧
        pt.costs = inst.objs.map fun o => o.offset + (internalCost o t : Int) := by
  have hs := reindexing_setting hn hp hw hfits h ho opts
  have hx : ExactFront inst' (alg.solve fuel limits env s).2.front := by
    have hr := run_ok alg hs hl h0 fuel
    rw [hdone] at hr
    exact hr.exactFront hs.unit
  refine ⟨fun v => (hx.exact v).trans (reindexing_front_internal hn hp h v), ?_⟩
  intro pt hpt x hxx u hu
  obtain ⟨t', ht', hc, hsh⟩ := (solutions_attain alg hs hl h0 fuel).attain pt hpt x hxx
  obtain ⟨s', hs', hcs⟩ := (hx.exact pt.costs).1 (List.mem_map.2 ⟨pt, hpt, rfl⟩)
  have hopt : (problem inst').ParetoOptimal t' := ⟨ht', fun a ha hd => hs'.2 a ha (by rw [hcs, ← hc]; exact hd)⟩
  obtain ⟨t, h1, h2, h3⟩ := reindexing_pareto hn hp h hopt hsh hu
  exact ⟨t, h1, h2, by rw [← hc, h3]⟩

end Run

/-! ## Findings -/

namespace Example

/-- One variable that must be true and costs 3. -/
def tripled : Instance := ⟨[[Lit.pos 0]], [.unweighted 0 3 [Lit.pos 0] 0 0], ⟨1, 0, 0⟩⟩

/-- One original variable, one auxiliary variable (1) that is not restricted. -/
def auxFree : Instance := ⟨[[Lit.pos 0, Lit.negOf 1, Lit.pos 1]], [.unweighted 0 1 [Lit.pos 0] 0 0], ⟨2, 0, 1⟩⟩

end Example

/-- **Finding for C22.** If the common weight of an unweighted objective is not one the costs of the reindexed instance
are wrong: the front of `Example.tripled` is `{3}`, that of the reindexed instance `{1}`. -/
theorem reindexing_front_counterexample : ∃ (inst inst' : Instance) (r : Reindexer) (v : List Int),
    WellFormed inst ∧ NoDupLits inst ∧ PosUnit inst ∧ reindexing inst = some (r, inst') ∧
    (problem inst).NonDominated v ∧ ¬ (problem inst').NonDominated v := by
  have hr : reindexing Example.tripled = some (⟨1, [(0, 0)], [0], 0⟩,
    ⟨[[Lit.pos 0]], [.unweighted 0 1 [Lit.pos 0] 0 0], ⟨1, 0, 0⟩⟩) := rfl
  have hn : NoDupLits Example.tripled := by unfold NoDupLits; decide
  have hp : PosUnit Example.tripled := by
    intro off w lits i lb h
    simp [Example.tripled] at h
    omega
  have hone : ∀ t, (problem Example.tripled).Feasible t → (problem Example.tripled).costs t = [3] := by
    intro t ht
    have := ht [Lit.pos 0] (by simp [problem, Example.tripled])
    simp only [List.mem_singleton, exists_eq_left] at this
    simp [Problem.costs, problem, Example.tripled, objValue, linear, this]
  have hone' : ∀ t, (problem Example.tripled).Feasible t →
      (Example.tripled.objs.map fun o => o.offset + (internalCost o t : Int)) = [1] := by
    intro t ht
    have := ht [Lit.pos 0] (by simp [problem, Example.tripled])
    simp only [List.mem_singleton, exists_eq_left] at this
    simp [Example.tripled, internalCost, linear, this, Objective.offset]
  refine ⟨_, _, _, [3], ⟨by decide, by decide, by decide, by decide⟩, hn, hp, hr, ?_, ?_⟩
  · have hf : (problem Example.tripled).Feasible fun _ => true := by
      unfold Problem.Feasible problem Example.tripled; decide
    exact ⟨fun _ => true, ⟨hf, fun t ht hd => hd.2 ((hone t ht).trans (hone _ hf).symm)⟩, hone _ hf⟩
  · rw [reindexing_front_internal hn hp hr]
    rintro ⟨s, hs, he⟩
    rw [hone' s hs.1] at he
    simp at he

/-- **Finding for C22.** Solutions of the reindexed instance that differ only in auxiliary variables are the same
solution of the original instance, so an enumeration can list a solution more than once. -/
theorem reindexing_duplicates_counterexample : ∃ (inst inst' : Instance) (r : Reindexer) (x y : Assignment) (s t : Asg),
    WellFormed inst ∧ NoDupLits inst ∧ PosUnit inst ∧ OrigDetermines inst ∧ reindexing inst = some (r, inst') ∧
    (problem inst').ParetoOptimal s ∧ (problem inst').ParetoOptimal t ∧ Shows inst' x s ∧ Shows inst' y t ∧
    x ≠ y ∧ r.convert x = r.convert y := by
  let inst' : Instance := ⟨[[Lit.pos 0, Lit.negOf 1, Lit.pos 1]], [.unweighted 0 1 [Lit.pos 0] 0 0], ⟨2, 1, 1⟩⟩
  have hr : reindexing Example.auxFree = some (⟨2, [(0, 0), (1, 1)], [0, 1], 0⟩, inst') := rfl
  have hcost : ∀ t, (problem inst').costs t = [if t 0 then 1 else 0] := by
    intro t
    simp [inst', Problem.costs, problem, objValue, linear, LitTrue, Lit.pos]
  have hopt : ∀ s : Asg, s 0 = false → (problem inst').ParetoOptimal s := by
    intro s hs
    refine ⟨?_, ?_⟩
    · intro c hc
      simp only [inst', problem, List.mem_singleton] at hc
      subst hc
      cases h1 : s 1 <;> simp [LitTrue, Lit.pos, Lit.negOf, h1]
    · rintro t - ⟨hd, hne⟩
      rw [hcost, hcost] at hd hne
      simp only [WeaklyDominates, hs] at hd
      cases h0 : t 0 <;> simp_all
  refine ⟨_, _, _, [.ff, .ff], [.ff, .tt], fun _ => false, fun v => v == 1,
    ⟨by decide, by decide, by decide, by decide⟩, by unfold NoDupLits; decide, ?_, ?_, hr, hopt _ rfl, hopt _ rfl, ?_, ?_,
    by decide, by decide⟩
  · intro off w lits i lb h
    simp [Example.auxFree] at h
    omega
  · intro s t _ _ hst
    have h0 := hst 0 (by decide)
    have : (problem Example.auxFree).costs s = (problem Example.auxFree).costs t := by
      simp only [problem, Example.auxFree, Problem.costs, List.map_cons, List.map_nil, objValue, linear, LitTrue, Lit.pos, h0]
    rw [this]
    exact List.forall₂_refl _
  · rw [shows_iff]; decide
  · rw [shows_iff]; decide

/-! ## Example -/

/-- Names are not the identity here: variable 3 comes first because the objective is read first. -/
def Example.sparse : Instance :=
  ⟨[[Lit.pos 5, Lit.negOf 3], [Lit.negOf 5, Lit.pos 1], [Lit.pos 3, Lit.pos 1]],
    [.weighted 2 [(Lit.pos 3, 2), (Lit.negOf 5, 3)] 0 0, .unweighted 0 1 [Lit.pos 5, Lit.pos 1] 1 0], ⟨7, 3, 5⟩⟩

example : WellFormed Example.sparse ∧ NoDupLits Example.sparse ∧
    reindexing Example.sparse = some (⟨3, [(3, 0), (5, 1), (1, 2)], [3, 5, 1], 3⟩,
      ⟨[[Lit.pos 1, Lit.negOf 0], [Lit.negOf 1, Lit.pos 2], [Lit.pos 0, Lit.pos 2]],
        [.weighted 2 [(Lit.pos 0, 2), (Lit.negOf 1, 3)] 0 0, .unweighted 0 1 [Lit.pos 1, Lit.pos 2] 1 0], ⟨3, 2, 2⟩⟩) :=
  ⟨⟨by decide, by decide, by decide, by decide⟩, by unfold NoDupLits; decide, rfl⟩

theorem Example.sparse_unit : UnitOne Example.sparse := by
  intro off w lits i lb h
  simp [Example.sparse] at h
  omega

theorem Example.sparse_posWeights : NoZeroWeights Example.sparse := by
  intro off lits i lb h t ht
  simp only [Example.sparse, List.mem_cons, Objective.weighted.injEq, reduceCtorEq, List.not_mem_nil, or_false] at h
  obtain ⟨-, rfl, -, -⟩ := h
  revert t
  decide

/-- A run on the reindexed example: two points with converted solutions. -/
example : ((reindexing Example.sparse).bind fun q =>
    (Alg.biOptSat.new (P := RefEnc 1) (C := RefEnc 0) q.2 defaultBlockingClause {}).map fun s =>
      let f := (Alg.biOptSat.solve 50 Limits.none (refEnv true) s).2.front
      f.map fun pt => (pt.costs, pt.sols.map q.1.convert)) =
    some [([2, 2], [[.dc, .tt, .dc, .ff]]), ([5, 1], [[.dc, .tt, .dc, .ff]])] := by decide +kernel

/-- A solution of the reindexed example and its conversion: variable 3 and variable 1 get their values back, variable 5
is not an original one. -/
example : (⟨3, [(3, 0), (5, 1), (1, 2)], [3, 5, 1], 3⟩ : Reindexer).convert [.ff, .tt, .tt] = [.dc, .tt, .dc, .ff] := by
  decide

end Scuttle
