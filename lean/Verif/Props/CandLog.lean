import Verif.Proof.CandLog
import Verif.Proof.LogTrue
import Verif.Props.Fence
import Verif.Props.Tighten

/-!
# C64: candidates and heuristic improvements in the log are true
-/

set_option linter.unusedSectionVars false

namespace Scuttle

open Spec

variable {P C D : Type} [UbEnc P] [UbEnc C] [TotDb D] [MergeEnc P C D]
variable [LawfulUbEnc P] [LawfulUbEnc C] [LawfulTotDb D] [LawfulMergeEnc P C D]
variable {env : Env} {s : Slv P C} {inst : Instance} {opts : KernelOptions} {bcg : Assignment → Clause}

/-- The problem with the objectives of the state. -/
def candCtx (env : Env) (inst : Instance) (os : List Objective) : CandCtx where
  good := (problem inst).Feasible
  objs := os
  n := inst.vm.maxEncVar + 1
  ex := env.tighten = false ∨ NoShared inst

theorem candOK {os : List Objective} (hs : Setting inst bcg opts env) (h : LbOnly inst.objs os) :
    CandOK env (candCtx env inst os) where
  orc := CorrectOracle.ok hs.oracle
  pos := Nat.succ_pos _
  vars := fun o ho p hp => by
    obtain ⟨o1, h1, h2⟩ := h.mem ho
    rw [lb_iter h2] at hp
    exact Nat.lt_succ_of_le (hs.wf.objs o1 h1 _ ((mem_objLits o1 p.1).2 ⟨p, hp, rfl⟩))
  tok := fun ht o ho => by
    obtain ⟨o1, h1, h2⟩ := h.mem ho
    rw [lb_iter h2]
    exact hs.tok ht o1 h1
  sep := fun he ht i j o o' hij ho ho' p hp hp' => by
    rcases he with he | he
    · rw [he] at ht; cases ht
    · obtain ⟨o1, h1, h2⟩ := h.get ho
      obtain ⟨o1', h1', h2'⟩ := h.get ho'
      rw [lb_iter h2] at hp
      rw [lb_iter h2', List.mem_map] at hp'
      exact he i j o1 o1' hij h1 h1' p.1 ((mem_objLits o1 _).2 ⟨p, hp, rfl⟩) ((mem_objLits o1' _).2 hp')

theorem candInv {os : List Objective} {A : Asg → Prop} (h : DBInv ((inst.withObjs os).pb opts bcg) A s)
    (hf : LbOnly inst.objs os) (hl : ∀ l, s.io.logger = some l → ∀ e ∈ l, e.NoCost) : CandInv (candCtx env inst os) s where
  db := fun m hm => by
    have h1 := (feasible_iff (inst := inst.withObjs os) (opts := opts) (bcg := bcg) m).2 (h.sound m hm).1
    rw [hf.problem] at h1
    exact h1
  objs := h.objs
  next := h.next
  below := h.below
  log := fun l h e he => by
    have := hl l h e he
    cases e <;> first | exact this.elim | trivial

theorem LbOnly.zipWith {os os' : List Objective} (h : LbOnly os os') (c : List Nat) :
    List.zipWith externalCost os' c = List.zipWith externalCost os c := by
  apply List.ext_getElem?
  intro i
  rw [List.getElem?_zipWith, List.getElem?_zipWith]
  cases ho : os'[i]? with
  | none =>
    have : os[i]? = none := by
      rw [List.getElem?_eq_none_iff] at ho ⊢
      rw [← h.length]; exact ho
    rw [this]
  | some o' =>
    obtain ⟨o, h1, h2⟩ := h.get ho
    rw [h1]
    cases c[i]? with
    | none => rfl
    | some x => simp only [lb_externalCost h2]

theorem costs_withObjs (os : List Objective) (m : Asg) :
    os.map (fun o => objValue o m) = List.zipWith externalCost os (os.map (icost · m)) := by
  induction os with
  | nil => rfl
  | cons o os ih => rw [List.map_cons, List.map_cons, List.zipWith_cons_cons, ih, objValue_external]

theorem lb_costs {os : List Objective} (h : LbOnly inst.objs os) (m : Asg) :
    (problem inst).costs m = List.zipWith externalCost os (os.map (icost · m)) := by
  rw [← costs_withObjs, ← h.problem]
  unfold Problem.costs problem Instance.withObjs
  simp [Function.comp_def]

/-- What is said about a message, in terms of the instance. -/
theorem msg_true {os : List Objective} (h : LbOnly inst.objs os) {e : LogEvent} (he : (candCtx env inst os).Msg e) :
    (∀ c ph, e = .candidate c ph → Reached inst c ∧ (env.tighten = false ∨ NoShared inst → Attained inst c)) ∧
    ∀ i a b, e = .heurImprovement i a b → Improved inst i a b := by
  refine ⟨?_, ?_⟩
  · rintro c ph rfl
    obtain ⟨m, h1, h2, h3⟩ := he
    have hlen : c.length = inst.objs.length := by
      have := h2.length_eq
      rw [List.length_map] at this
      rw [← this]; exact h.length
    refine ⟨⟨hlen, m, h1, ?_⟩, fun hx => ⟨hlen, m, h1, ?_⟩⟩
    · rw [lb_costs h, ← h.zipWith]
      exact externalCost_mono h2
    · rw [lb_costs h, ← h.zipWith]
      exact congrArg _ (h3 hx)
  · rintro i a b rfl
    obtain ⟨o', m, m', h1, h2, h3, h4, h5, h6⟩ := he
    obtain ⟨o, h7, h8⟩ := h.get h1
    refine ⟨o, m, m', h7, h2, h3, ?_, ?_, ?_⟩
    · rw [objValue_external, ← lb_icost h8, h4]
    · rw [objValue_external, ← lb_icost h8, h5]
    · rw [lb_costs h, lb_costs h]
      refine externalCost_mono ?_
      rw [List.forall₂_map_left_iff, List.forall₂_map_right_iff, List.forall₂_same]
      exact h6

theorem calls_true {os : List Objective} {A : Asg → Prop} (hs : Setting inst bcg opts env) (hf : LbOnly inst.objs os)
    (h : DBInv ((inst.withObjs os).pb opts bcg) A s) (hl : ∀ l, s.io.logger = some l → ∀ e ∈ l, e.NoCost) (alg : Alg)
    (cs : List Call) {l : List LogEvent} (hlog : (alg.calls env cs s).2.io.logger = some l) :
    (∀ p ∈ candidates l, Reached inst p.1 ∧ (env.tighten = false ∨ NoShared inst → Attained inst p.1)) ∧
    ∀ p ∈ improvements l, Improved inst p.1 p.2.1 p.2.2 := by
  have hi := CandInv.calls (candOK hs hf) alg cs (candInv h hf hl)
  refine ⟨fun p hp => ?_, fun p hp => ?_⟩
  · unfold candidates at hp
    rw [List.mem_filterMap] at hp
    obtain ⟨e, he, hpe⟩ := hp
    have := (msg_true hf (hi.log l hlog e he)).1
    cases e <;> simp at hpe
    subst hpe
    exact this _ _ rfl
  · unfold improvements at hp
    rw [List.mem_filterMap] at hp
    obtain ⟨e, he, hpe⟩ := hp
    have := (msg_true hf (hi.log l hlog e he)).2
    cases e <;> simp at hpe
    subst hpe
    exact this _ _ _ rfl

theorem started_calls {alg : Alg} (hs : Setting inst bcg opts env) (h0 : Started alg inst bcg opts s) (cs : List Call)
    {l : List LogEvent} (hlog : (alg.calls env cs s).2.io.logger = some l) :
    (∀ p ∈ candidates l, Reached inst p.1 ∧ (env.tighten = false ∨ NoShared inst → Attained inst p.1)) ∧
    ∀ p ∈ improvements l, Improved inst p.1 p.2.1 p.2.2 :=
  calls_true hs (.refl _) (started_prepared hs.wf h0).core.inv (fun l h => by
    rcases started_logger h0 with h' | h' <;> rw [h'] at h <;> cases h
    simp) alg cs hlog

/-! ## The theorems -/

/-- C64: whatever calls are made on a fresh solver, with whatever limits, and however they end, each candidate in the log is
the cost vector of a feasible assignment or one that a feasible assignment weakly dominates. -/
theorem candidates_reached {alg : Alg} (hs : Setting inst bcg opts env) (h0 : Started alg inst bcg opts s) (cs : List Call)
    {l : List LogEvent} (hlog : (alg.calls env cs s).2.io.logger = some l) : ∀ p ∈ candidates l, Reached inst p.1 :=
  fun p hp => ((started_calls hs h0 cs hlog).1 p hp).1

/-- C64: without tightening, or if no literal is in two objectives, each candidate in the log is the cost vector of a
feasible assignment. By `tightened_candidate_counterexample`, the assumption is needed. -/
theorem candidates_attained {alg : Alg} (hs : Setting inst bcg opts env) (h0 : Started alg inst bcg opts s) (cs : List Call)
    (hx : env.tighten = false ∨ NoShared inst) {l : List LogEvent} (hlog : (alg.calls env cs s).2.io.logger = some l) :
    ∀ p ∈ candidates l, Attained inst p.1 := fun p hp => ((started_calls hs h0 cs hlog).1 p hp).2 hx

/-- C64: each heuristic improvement in the log is one: both costs are those of feasible assignments, and the second is at
least as good in all objectives. -/
theorem improvements_true {alg : Alg} (hs : Setting inst bcg opts env) (h0 : Started alg inst bcg opts s) (cs : List Call)
    {l : List LogEvent} (hlog : (alg.calls env cs s).2.io.logger = some l) :
    ∀ p ∈ improvements l, Improved inst p.1 p.2.1 p.2.2 := (started_calls hs h0 cs hlog).2

/-- C64: the same after core boosting. -/
theorem messages_true_boosted {alg : Alg} {cb : CbOptions} {fuel : Nat} (hs : Setting inst bcg opts env) (nd : NoDupCores env)
    (hn : NoDupLits inst) (h0 : Started alg inst bcg opts s) (hb : (coreBoost D fuel cb env s).1 = .ok true) (cs : List Call)
    {l : List LogEvent} (hlog : (alg.calls env cs (coreBoost D fuel cb env s).2).2.io.logger = some l) :
    (∀ p ∈ candidates l, Reached inst p.1 ∧ (env.tighten = false ∨ NoShared inst → Attained inst p.1)) ∧
    ∀ p ∈ improvements l, Improved inst p.1 p.2.1 p.2.2 := by
  obtain ⟨h1, -, -⟩ := boosted_of_ok hs nd hn h0 hb
  exact calls_true hs h1.rel h1.core.inv (coreBoost_noCost (D := D) (env := env) h0 fuel cb) alg cs hlog

/-! ## Examples -/

/-- The candidates and the improvements in the log after calls on a solver with tightening. -/
def Example.candLog (inst : Instance) (alg : Alg) (cs : List Call) : Option (List (List Nat × Phase) × List (Nat × Nat × Nat)) :=
  (alg.new (P := RefEnc 1) (C := RefEnc 0) inst defaultBlockingClause {}).bind fun s =>
    (alg.calls (refEnv true true) (.attachLogger :: cs) s).2.io.logger.map fun l => (candidates l, improvements l)

/-- A run that is cut short and continued; some of the improvements are proper. -/
example : Example.candLog Example.mixed .pMinimal [.solve 50 { candidates := some 1 }, .solve 50 Limits.none] =
    some ([([2, 0], .outerLoop), ([2, 0], .outerLoop), ([0, 1], .outerLoop)],
      [(0, 2, 2), (1, 1, 0), (0, 2, 2), (1, 1, 0), (0, 0, 0), (1, 2, 1)]) := by decide +kernel

theorem Example.mixed_setting_tight : Setting Example.mixed defaultBlockingClause {} (refEnv true true) :=
  { Example.mixed_setting with
    oracle := refEnv_correct true true
    tight := fun _ => ⟨by unfold NoDupLits; decide, by
      intro off lits i lb h
      simp [Example.mixed] at h
      rcases h with ⟨-, rfl, -, -⟩
      decide⟩ }

theorem Example.mixed_noShared : NoShared Example.mixed := by
  intro i j o o' hij ho ho' l hl
  match i, j, hij, ho, ho' with
  | 0, 0, h, _, _ => exact absurd rfl h
  | 1, 1, h, _, _ => exact absurd rfl h
  | 0, 1, _, ho, ho' =>
    cases ho; cases ho'
    revert l; decide
  | 1, 0, _, ho, ho' =>
    cases ho; cases ho'
    revert l; decide
  | _ + 2, _, _, ho, _ => cases ho
  | 0, _ + 2, _, _, ho' => cases ho'
  | 1, _ + 2, _, _, ho' => cases ho'

/-- With a shared literal, the first candidate is not attained, but the improvements are true. -/
example : Example.candLog Example.stale .pMinimal [.solve 50 Limits.none] =
    some ([([1, 0], .outerLoop), ([0, 0], .minimization)], [(0, 1, 1), (1, 2, 0)]) ∧
    Setting Example.stale defaultBlockingClause {} (refEnv true true) :=
  ⟨by decide +kernel, Example.stale_setting _ rfl⟩

/-- The other algorithms. -/
example : Example.candLog Example.stale .lowerBounding [.solve 50 Limits.none] =
      some ([([0, 0], .outerLoop)], [(0, 0, 0), (1, 0, 0)]) ∧
    Example.candLog Example.stale .biOptSat [.solve 50 Limits.none] = some ([([0, 0], .linsu)], [(0, 1, 1)]) :=
  ⟨by decide +kernel, by decide +kernel⟩

/-- After core boosting, which finds the optimum 2 of the first objective. -/
example : ((Alg.lowerBounding.new (P := RefTot.RefTree 1) (C := RefTot.RefTree 0) Example.inst defaultBlockingClause {}).any
    fun s =>
      let r := coreBoost RefTot 50 {} (refEnv true true) s.attachLogger
      (match r.1 with | .ok b => b | .error _ => false) &&
        (Alg.lowerBounding.calls (refEnv true true) [.solve 50 Limits.none] r.2).2.io.logger.map
          (fun l => (candidates l).map Prod.fst) == some [[2, 1], [5, 0]]) = true ∧
    (∀ opts, Setting Example.inst defaultBlockingClause opts (refEnv true true)) ∧ NoDupCores (refEnv true true) ∧
    NoDupLits Example.inst :=
  ⟨by decide +kernel, Example.setting_tight, fun t lim db as => refEnv_noDupCores true t lim db as, Example.noDupLits⟩

end Scuttle
