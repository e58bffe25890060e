import Verif.Props.Solve
import Verif.Proof.CoreBoost
import Verif.Proof.RefTot
import Verif.Proof.IoCalls

/-!
# C17, C18, C19, C25, C47, C48: core boosting

`D` is the type of totalizer databases; the theorems hold for every type that meets the contract `LawfulTotDb`.
-/

set_option linter.unusedSectionVars false

namespace Scuttle

open Spec

variable {P C D : Type} [UbEnc P] [UbEnc C] [LawfulUbEnc P] [LawfulUbEnc C] [TotDb D] [LawfulTotDb D] [MergeEnc P C D]
  [LawfulMergeEnc P C D]
variable {env : Env} {s : Slv P C} {inst : Instance} {opts : KernelOptions} {bcg : Assignment → Clause} {limits : Limits}

/-! ## What holds after core boosting -/

theorem boosted_of_ok {alg : Alg} {cb : CbOptions} {fuel : Nat} (hs : Setting inst bcg opts env) (nd : NoDupCores env)
    (hn : NoDupLits inst) (h0 : Started alg inst bcg opts s) (hb : (coreBoost D fuel cb env s).1 = .ok true) :
    Boosted inst opts bcg s (coreBoost D fuel cb env s).2 ∧
    IoBase inst.objs.length (coreBoost D fuel cb env s).2.io ∧
    (cb.after = .reset → (coreBoost D fuel cb env s).2.k.db = inst.clauses) := by
  have h := wp_coreBoost (D := D) (fuel := fuel) (cb := cb) hs nd hn (fresh_fine hs.wf (started_fresh h0))
  unfold wp at h
  cases hr : coreBoost D fuel cb env s with
  | mk r s1 =>
    rw [hr] at h hb
    simp only at hb
    subst hb
    simp only at h
    exact ⟨(h.2.2 trivial).1, h.1.base, fun hr => ((h.2.2 trivial).2 hr).1⟩

theorem Boosted.constZero {s0 : Slv P C} (h : Boosted inst opts bcg s0 s) (hpos : PosUnit inst) (hflat : NotFlat inst) :
    ConstZero (pbAt inst opts bcg s) s := by
  intro i e o he ho hc t ht
  have hf : ∀ t, (pbAt inst opts bcg s).Sol t ↔ (problem inst).Feasible t := fun t =>
    (feasible_iff (opts := opts) (bcg := bcg) (inst := inst.withObjs s.k.objs) t).symm
  have hcost := h.const i e o he ho hc
  obtain ⟨o', ho', heq⟩ := h.rel.mem (List.mem_of_getElem? ho)
  have hval : ∀ t, (problem inst).Feasible t → objValue o' t = (o.lowerBound * o'.unitWeight : Nat) + o'.offset := by
    intro t ht
    rw [objValue_eq]
    unfold extVal
    rw [← lb_icost heq, hcost t ht]
  have hfl := hflat o' ho' (fun a b ha hb => by rw [hval a ha, hval b hb]) t ((hf t).1 ht)
  rw [hval t ((hf t).1 ht)] at hfl
  have h0 : o.lowerBound * o'.unitWeight = 0 := by omega
  have := unitWeight_pos hpos ho'
  rw [hcost t ((hf t).1 ht)]
  rcases Nat.mul_eq_zero.1 h0 with h | h <;> omega

/-- A run of an algorithm after core boosting. -/
theorem Boosted.run {s0 s1 : Slv P C} (h1 : Boosted inst opts bcg s0 s1) (h2 : IoBase inst.objs.length s1.io) (alg : Alg)
    (hs : Setting inst bcg opts env) (hl : LimitsFine env limits) (h0 : Started alg inst bcg opts s0)
    (hflat : alg = .biOptSat → NotFlat inst) (fuel' : Nat) :
    ∃ os, LbOnly inst.objs os ∧ iterBound (inst.withObjs os) = iterBound inst ∧
      Setting (inst.withObjs os) bcg opts env ∧
      RunOK ((inst.withObjs os).pb opts bcg) env (iterBound (inst.withObjs os)) fuel'
        (alg.solve fuel' limits env s1).1 (alg.solve fuel' limits env s1).2 := by
  have hp := h1.prepared (fresh_ok hs.wf (started_fresh h0)) h2 alg (by
    rintro rfl
    exact ⟨started_bos h0, h1.constZero hs.unit (hflat rfl)⟩)
  have hs' := h1.rel.setting hs
  refine ⟨_, h1.rel, ?_, hs', prepared_run alg hs' hl hp fuel'⟩
  have hmap : ∀ (f : Nat → Nat), (inst.withObjs s1.k.objs).objs.map (fun o => f (maxCost o)) =
      inst.objs.map fun o => f (maxCost o) := by
    intro f
    apply List.ext_getElem?
    intro j
    simp only [List.getElem?_map, Instance.withObjs]
    cases ho : s1.k.objs[j]? with
    | none =>
      have : inst.objs[j]? = none := by
        rw [List.getElem?_eq_none_iff] at ho ⊢
        have := h1.rel.length
        omega
      rw [this]
    | some o =>
      obtain ⟨o', ho', he⟩ := h1.rel.get ho
      rw [ho', Option.map_some, Option.map_some, lb_maxCost he]
  unfold iterBound
  rw [hmap (fun x => x + 1), hmap (fun x => x)]
  rfl

theorem boosted_run (alg : Alg) {cb : CbOptions} {fuel : Nat} (hs : Setting inst bcg opts env) (hl : LimitsFine env limits)
    (nd : NoDupCores env) (hn : NoDupLits inst) (h0 : Started alg inst bcg opts s)
    (hflat : alg = .biOptSat → NotFlat inst) (hb : (coreBoost D fuel cb env s).1 = .ok true) (fuel' : Nat) :
    ∃ os, LbOnly inst.objs os ∧ iterBound (inst.withObjs os) = iterBound inst ∧
      Setting (inst.withObjs os) bcg opts env ∧
      RunOK ((inst.withObjs os).pb opts bcg) env (iterBound (inst.withObjs os)) fuel'
        (alg.solve fuel' limits env (coreBoost D fuel cb env s).2).1
        (alg.solve fuel' limits env (coreBoost D fuel cb env s).2).2 := by
  obtain ⟨h1, h2, -⟩ := boosted_of_ok hs nd hn h0 hb
  exact h1.run h2 alg hs hl h0 hflat fuel'

/-! ## Example runs -/

/-- Cores of the reference oracle are the negated assumptions. -/
theorem refEnv_noDupCores (debug : Bool) : NoDupCores (refEnv debug) := by
  intro t lim db as core h hn
  simp only [refEnv, refOracle] at h
  split at h
  · simp at h
  · simp only [Answer.unsat.injEq] at h
    subst h
    exact nodup_map_not hn

/-- Core boosting followed by `solve`, with the reference encodings; `none` if the solver cannot be built. -/
def Example.boost (inst : Instance) (env : Env) (alg : Alg) (opts : KernelOptions) (cb : CbOptions) :
    Option (Except Stop Bool × List Nat × Except Stop Unit × ParetoFront Assignment) :=
  (alg.new (P := RefTot.RefTree 1) (C := RefTot.RefTree 0) inst defaultBlockingClause opts).map fun s =>
    let r := coreBoost RefTot 50 cb env s.attachLogger
    let r' := alg.solve 50 Limits.none env r.2
    (r.1, r.2.k.objs.map Objective.lowerBound, r'.1, r'.2.front)

/-- Core boosting returned `Done(true)` with these lower bounds, and the run then returned `Done` with these costs. -/
def Example.boosted (lbs : List Nat) (costs : List (List Int)) :
    Option (Except Stop Bool × List Nat × Except Stop Unit × ParetoFront Assignment) → Bool
  | some (.ok true, bs, .ok (), front) => bs == lbs && front.map NonDomPoint.costs == costs
  | _ => false

theorem Example.noDupLits : NoDupLits Example.inst := by unfold NoDupLits; decide

/-- The second objective of the example is not flat, and neither is the first. -/
theorem Example.notFlat : NotFlat Example.inst := by
  have f1 : (problem Example.inst).Feasible (fun v => v == 0 || v == 2) := by
    intro c hc
    simp only [problem, Example.inst, List.mem_cons, List.not_mem_nil, or_false] at hc
    rcases hc with rfl | rfl | rfl
    · exact ⟨Lit.pos 0, by simp, rfl⟩
    · exact ⟨Lit.pos 2, by simp, rfl⟩
    · exact ⟨Lit.pos 0, by simp, rfl⟩
  have f2 : (problem Example.inst).Feasible (fun v => v == 0 || v == 1) := by
    intro c hc
    simp only [problem, Example.inst, List.mem_cons, List.not_mem_nil, or_false] at hc
    rcases hc with rfl | rfl | rfl
    · exact ⟨Lit.pos 0, by simp, rfl⟩
    · exact ⟨Lit.pos 1, by simp, rfl⟩
    · exact ⟨Lit.pos 0, by simp, rfl⟩
  intro o ho h
  have h' := h _ _ f1 f2
  simp only [Example.inst, List.mem_cons, List.not_mem_nil, or_false] at ho
  rcases ho with rfl | rfl <;> simp [objValue, linear, LitTrue, Lit.pos] at h'

/-! ## C17 and C48 -/

theorem Spec.ExactFront.of_lb {os : List Objective} {f : ParetoFront Assignment} (h : LbOnly inst.objs os)
    (hf : ExactFront (inst.withObjs os) f) : ExactFront inst f :=
  ⟨by have := hf.exact; rw [h.problem] at this; exact this, hf.once⟩

/-- C17: if core boosting of a fresh solver returns `Done(true)` and the following call to `solve` returns `Done`, the
front is exactly the Pareto front of the instance; for P-minimal and LowerBounding. -/
theorem coreBoost_exact_front (alg : Alg) (ha : alg ≠ .biOptSat) {cb : CbOptions} (hs : Setting inst bcg opts env)
    (hl : LimitsFine env limits) (nd : NoDupCores env) (hn : NoDupLits inst) (h0 : Started alg inst bcg opts s)
    (fuel fuel' : Nat) (hb : (coreBoost D fuel cb env s).1 = .ok true)
    (hdone : (alg.solve fuel' limits env (coreBoost D fuel cb env s).2).1 = .ok ()) :
    ExactFront inst (alg.solve fuel' limits env (coreBoost D fuel cb env s).2).2.front := by
  obtain ⟨os, h1, -, h2, h3⟩ := boosted_run alg hs hl nd hn h0 (fun h => absurd h ha) hb fuel'
  rw [hdone] at h3
  exact (h3.exactFront h2.unit).of_lb h1

/-- C17: however `solve` ends after core boosting, all points are non-dominated and all solutions attain their costs;
there is no panic and no error unless the logger fails, and the number of loop iterations is bounded as without core
boosting. -/
theorem coreBoost_run_sound (alg : Alg) (ha : alg ≠ .biOptSat) {cb : CbOptions} (hs : Setting inst bcg opts env)
    (hl : LimitsFine env limits) (nd : NoDupCores env) (hn : NoDupLits inst) (h0 : Started alg inst bcg opts s)
    (fuel fuel' : Nat) (hb : (coreBoost D fuel cb env s).1 = .ok true) :
    SoundFront inst (alg.solve fuel' limits env (coreBoost D fuel cb env s).2).2.front ∧
    SolutionsOK inst (alg.solve fuel' limits env (coreBoost D fuel cb env s).2).2.front ∧
    (alg.solve fuel' limits env (coreBoost D fuel cb env s).2).1 ≠ .error .panic ∧
    ((∀ t, env.logOk t = true) → (alg.solve fuel' limits env (coreBoost D fuel cb env s).2).1 ≠ .error .error) ∧
    (iterBound inst < fuel' → (alg.solve fuel' limits env (coreBoost D fuel cb env s).2).1 ≠ .error .fuel) := by
  obtain ⟨os, h1, h2, h3, h4⟩ := boosted_run alg hs hl nd hn h0 (fun h => absurd h ha) hb fuel'
  obtain ⟨cs, h5, -⟩ := h4.front
  refine ⟨?_, ?_, h4.panic, fun hlog he => ?_, fun hN h => ?_⟩
  · have := h5.soundFront h3.unit
    exact ⟨by have := this.sound; rw [h1.problem] at this; exact this, this.once⟩
  · have := h5.solutionsOK
    exact ⟨this.some, by have := this.attain; rw [h1.problem] at this; exact this⟩
  · obtain ⟨t, ht⟩ := h4.error he
    rw [hlog t] at ht
    simp at ht
  · have := h4.fuel h
    omega

/-- The hypotheses of both are met: the settings of the example, and runs with two points in the front, with and without
core processing, rebasing and reset. -/
example (opts : KernelOptions) : Setting Example.inst defaultBlockingClause opts (refEnv true) ∧ NoDupCores (refEnv true) ∧
    NoDupLits Example.inst := ⟨Example.setting opts, refEnv_noDupCores true, Example.noDupLits⟩

example : Example.boosted [2, 0] [[3, 1], [0, 6]] (Example.boost Example.inst refEnv .pMinimal {} {}) := by decide +kernel
example : Example.boosted [2, 0] [[0, 6], [3, 1]] (Example.boost Example.inst refEnv .lowerBounding
    { coreMinimization := true, coreExhaustion := true, coreTrimming := true, storeCnf := true }
    { rebase := true, after := .reset }) := by decide +kernel

/-- C48: BiOptSat after core boosting, if no objective has the same value for all feasible assignments, unless that value
is its offset. Without this condition the claim does not hold, see `coreBoost_biOptSat_counterexample`. -/
theorem coreBoost_biOptSat_partial {cb : CbOptions} (hs : Setting inst bcg opts env)
    (hl : LimitsFine env limits) (nd : NoDupCores env) (hn : NoDupLits inst) (h0 : Started .biOptSat inst bcg opts s)
    (hflat : NotFlat inst) (fuel fuel' : Nat) (hb : (coreBoost D fuel cb env s).1 = .ok true) :
    ((Alg.biOptSat.solve fuel' limits env (coreBoost D fuel cb env s).2).1 = .ok () →
      ExactFront inst (Alg.biOptSat.solve fuel' limits env (coreBoost D fuel cb env s).2).2.front) ∧
    (Alg.biOptSat.solve fuel' limits env (coreBoost D fuel cb env s).2).1 ≠ .error .panic ∧
    (iterBound inst < fuel' → (Alg.biOptSat.solve fuel' limits env (coreBoost D fuel cb env s).2).1 ≠ .error .fuel) := by
  obtain ⟨os, h1, h2, h3, h4⟩ := boosted_run .biOptSat hs hl nd hn h0 (fun _ => hflat) hb fuel'
  refine ⟨fun hdone => ?_, h4.panic, fun hN h => ?_⟩
  · rw [hdone] at h4
    exact (h4.exactFront h3.unit).of_lb h1
  · have := h4.fuel h
    omega

example : NotFlat Example.inst ∧
    Example.boosted [2, 0] [[0, 6], [3, 1]] (Example.boost Example.inst refEnv .biOptSat {} { rebase := true }) :=
  ⟨Example.notFlat, by decide +kernel⟩

/-- Instance with an objective that has the value 1 for all feasible assignments. -/
def Example.flat : Instance where
  clauses := [[Lit.pos 0], [Lit.pos 1, Lit.pos 2]]
  objs := [.unweighted 0 1 [Lit.pos 0] 0 0, .unweighted 0 1 [Lit.pos 1] 1 0]
  vm := ⟨3, 2, 2⟩

/-- Core boosting returned `Done(true)`, and the run then ended like this without a point. -/
def Example.stuck (e : Stop) :
    Option (Except Stop Bool × List Nat × Except Stop Unit × ParetoFront Assignment) → Bool
  | some (.ok true, _, .error e', front) => e' == e && front.isEmpty
  | _ => false

/-- C48 does not hold in general: if an objective has become constant, BiOptSat takes the lower bound of its encoding to
be 0 and keeps on searching for a better solution. In a debug build the run panics; in a release build it has not ended
after more iterations than suffice without core boosting. Without core boosting, both builds find the only point. -/
theorem coreBoost_biOptSat_counterexample : ∃ inst : Instance,
    (∀ debug, Setting inst defaultBlockingClause {} (refEnv debug)) ∧ NoDupLits inst ∧
    Example.stuck .panic (Example.boost inst (refEnv true) .biOptSat {} {}) = true ∧
    Example.stuck .fuel (Example.boost inst (refEnv false) .biOptSat {} {}) = true ∧ iterBound inst < 50 ∧
    Example.boosted [1, 0] [[1, 0]] (Example.boost inst (refEnv true) .pMinimal {} {}) = true := by
  refine ⟨Example.flat, fun debug => ⟨⟨by decide, by decide, by decide, by decide⟩,
    Example.fitsIsize_of_sum (by decide), ?_, .noEnum _, refEnv_correct debug, fun h => by simp [refEnv] at h⟩, by unfold NoDupLits; decide,
    by decide +kernel, by decide +kernel, by decide, by decide +kernel⟩
  intro off w lits i lb h
  simp [Example.flat] at h
  omega

/-! ## C18 -/

theorem Boosted.ideal {s0 s1 : Slv P C} (h1 : Boosted inst opts bcg s0 s1) :
    List.Forall₂ (fun o o' => ∃ b, o' = o.setLowerBound b ∧
        (∀ t, (problem inst).Feasible t → (b * o.unitWeight : Nat) + o.offset ≤ objValue o t) ∧
        ((o.isConstant = false ∨ ∃ t, (problem inst).Feasible t) →
          ∃ t, (problem inst).Feasible t ∧ objValue o t = (b * o.unitWeight : Nat) + o.offset))
      inst.objs s1.k.objs := by
  rw [List.forall₂_iff_get]
  refine ⟨h1.rel.length.symm, fun j hj hj' => ?_⟩
  obtain ⟨o, ho, he⟩ := h1.rel.get (List.getElem?_eq_getElem hj')
  have ho' : inst.objs[j] = o := by rw [List.getElem?_eq_getElem hj] at ho; simpa using ho
  have hm : s1.k.objs[j] ∈ s1.k.objs := List.getElem_mem hj'
  simp only [List.get_eq_getElem, ho']
  generalize s1.k.objs[j] = o' at he hm
  refine ⟨o'.lowerBound, ?_, ?_, ?_⟩
  · cases o <;> cases o' <;> simp_all [Objective.setLowerBound, Objective.lowerBound]
  · intro t ht
    have := h1.lower o' hm t ht
    rw [lb_icost he] at this
    have := Nat.mul_le_mul_right o.unitWeight this
    rw [objValue_eq]
    unfold extVal
    omega
  · intro hf
    rw [← lb_isConstant he] at hf
    obtain ⟨t, h3, h4⟩ := h1.attained o' hm hf
    refine ⟨t, h3, ?_⟩
    rw [objValue_eq]
    unfold extVal
    rw [← lb_icost he, h4]

/-- C18: after `Done(true)` the lower bound of each objective is a lower bound for all feasible assignments, and attained
by one of them if there is a feasible assignment, and also if the objective is not constant; the other parts of the
objectives are unchanged. -/
theorem coreBoost_ideal {alg : Alg} {cb : CbOptions} (hs : Setting inst bcg opts env) (nd : NoDupCores env)
    (hn : NoDupLits inst) (h0 : Started alg inst bcg opts s) (fuel : Nat)
    (hb : (coreBoost D fuel cb env s).1 = .ok true) :
    List.Forall₂ (fun o o' => ∃ b, o' = o.setLowerBound b ∧
        (∀ t, (problem inst).Feasible t → (b * o.unitWeight : Nat) + o.offset ≤ objValue o t) ∧
        ((o.isConstant = false ∨ ∃ t, (problem inst).Feasible t) →
          ∃ t, (problem inst).Feasible t ∧ objValue o t = (b * o.unitWeight : Nat) + o.offset))
      inst.objs (coreBoost D fuel cb env s).2.k.objs := by
  exact (boosted_of_ok hs nd hn h0 hb).1.ideal

/-- C18: `Done(false)` is only returned if there is no feasible assignment. -/
theorem coreBoost_false {alg : Alg} {cb : CbOptions} (hs : Setting inst bcg opts env) (nd : NoDupCores env)
    (hn : NoDupLits inst) (h0 : Started alg inst bcg opts s) (fuel : Nat)
    (hb : (coreBoost D fuel cb env s).1 = .ok false) : ¬ ∃ t, (problem inst).Feasible t := by
  have h := wp_coreBoost (D := D) (fuel := fuel) (cb := cb) hs nd hn (fresh_fine hs.wf (started_fresh h0))
  unfold wp at h
  cases hr : coreBoost D fuel cb env s with
  | mk r s1 =>
    rw [hr] at h hb
    simp only at hb
    subst hb
    exact h.2.1 rfl

/-- The example for C17 meets the hypotheses of `coreBoost_ideal`; here is one for `coreBoost_false`. -/
def Example.noSol : Instance where
  clauses := [[Lit.pos 0], [(Lit.pos 0).not]]
  objs := [.weighted 0 [(Lit.pos 0, 1), (Lit.pos 1, 1), (Lit.pos 2, 1)] 0 0]
  vm := ⟨3, 2, 2⟩

theorem Example.noSol_setting {opts : KernelOptions} (hen : opts.enumeration = .noEnum) {env : Env}
    (he : CorrectOracle env) : Setting Example.noSol defaultBlockingClause opts env :=
  ⟨⟨by decide, by decide, by decide, by decide⟩, Example.fitsIsize_of_sum (by decide), by
    intro off w lits i lb h
    simp [Example.noSol] at h, by rw [hen]; exact .noEnum _, he, fun _ => ⟨by unfold NoDupLits; decide, by
      intro off lits i lb h
      simp only [Example.noSol, List.mem_singleton, Objective.weighted.injEq] at h
      rw [h.2.1]
      decide⟩⟩

/-- How core boosting ended. -/
def Example.boostEnd (inst : Instance) (env : Env) (alg : Alg) (opts : KernelOptions) (cb : CbOptions) :
    Option (Except Stop Bool) :=
  (alg.new (P := RefTot.RefTree 1) (C := RefTot.RefTree 0) inst defaultBlockingClause opts).map fun s =>
    (coreBoost RefTot 50 cb env s).1

/-- Core boosting ended like this. -/
def Example.endsWith (r : Except Stop Bool) : Option (Except Stop Bool) → Bool
  | some r' => match r, r' with
    | .ok a, .ok b => a == b
    | .error a, .error b => a == b
    | _, _ => false
  | none => false

example : Setting Example.noSol defaultBlockingClause {} refEnv ∧ NoDupCores refEnv ∧ NoDupLits Example.noSol ∧
    Example.endsWith (.ok false) (Example.boostEnd Example.noSol refEnv .pMinimal {} {}) :=
  ⟨Example.noSol_setting rfl (refEnv_correct _), refEnv_noDupCores _, by unfold NoDupLits; decide, by decide +kernel⟩

/-! ## C47 -/

/-- C47: on a feasible instance, core boosting does not panic, returns an error only if the logger fails or if the clauses
were to be restored but not stored, and does not return `Done(false)`; the number of loop iterations is bounded. -/
theorem coreBoost_terminates (inst : Instance) : ∃ N, ∀ (alg : Alg) (bcg : Assignment → Clause) (opts : KernelOptions)
    (env : Env) (s : Slv P C) (cb : CbOptions) (fuel : Nat), Setting inst bcg opts env → NoDupCores env →
    NoDupLits inst → Started alg inst bcg opts s → (∃ t, (problem inst).Feasible t) →
    (coreBoost D fuel cb env s).1 ≠ .error .panic ∧
    ((∀ t, env.logOk t = true) → (cb.after = .reset → opts.storeCnf = true) →
      (coreBoost D fuel cb env s).1 ≠ .error .error) ∧
    (N < fuel → (coreBoost D fuel cb env s).1 ≠ .error .fuel) ∧ (coreBoost D fuel cb env s).1 ≠ .ok false := by
  refine ⟨boostBound inst, fun alg bcg opts env s cb fuel hs nd hn h0 hfe => ?_⟩
  have h := wp_coreBoost (D := D) (fuel := fuel) (cb := cb) hs nd hn (fresh_fine hs.wf (started_fresh h0))
  have hfe' : ∃ t, (inst.pb opts bcg).Sol t := hfe.imp fun t ht => (feasible_iff t).1 ht
  unfold wp at h
  cases hr : coreBoost D fuel cb env s with
  | mk r s1 =>
    rw [hr] at h
    simp only
    cases r with
    | ok b =>
      refine ⟨by simp, by simp, by simp, ?_⟩
      rintro h'
      simp only [Except.ok.injEq] at h'
      exact h.2.1 h' hfe
    | error e =>
      simp only [CbStop] at h
      refine ⟨?_, fun hlog hst => ?_, fun hN => ?_, by simp⟩
      · intro h'
        simp only [Except.error.injEq] at h'
        subst h'
        exact h hfe'
      · intro h'
        simp only [Except.error.injEq] at h'
        subst h'
        rcases h.2 with ⟨t, ht⟩ | ⟨h1, h2⟩
        · rw [hlog t] at ht
          simp at ht
        · rw [hst h1] at h2
          simp at h2
      · intro h'
        simp only [Except.error.injEq] at h'
        subst h'
        have := h hfe'
        omega

/-- The example of C17 is feasible. -/
example : ∃ t, (problem Example.inst).Feasible t := by
  refine ⟨fun _ => true, fun c hc => ?_⟩
  simp only [problem, Example.inst, List.mem_cons, List.not_mem_nil, or_false] at hc
  rcases hc with rfl | rfl | rfl <;> exact ⟨_, List.mem_cons_self, rfl⟩

/-- An oracle that returns short cores once the clauses alone are unsatisfiable. -/
def Example.shortCores (debug : Bool) : Env := { refEnv debug with
  oracle := fun _ _ db as =>
    if (dpll (litCount db) db).isNone then
      .unsat (if as.length = 3 then (as.take 1).map Lit.not else if as.length = 2 then as.map Lit.not else [])
    else refOracle db as }

theorem Example.shortCores_correct (debug : Bool) : CorrectOracle (Example.shortCores debug) := by
  have href := refEnv_correct debug
  have hu : ∀ db, (dpll (litCount db) db).isNone = true → ∀ m, ¬ ∀ c ∈ db, ∃ l ∈ c, LitTrue m l := by
    intro db h m hm
    have := dpll_complete (Nat.le_refl _) (by simpa using h) m
    have h2 : cnfEval m db = true := by
      simp only [cnfEval, clauseEval, List.all_eq_true, List.any_eq_true, Lit.eval_iff]
      exact hm
    rw [h2] at this
    simp at this
  refine ⟨?_, ?_, ?_, href.flip⟩
  · intro t lim db as m h
    simp only [Example.shortCores] at h
    split at h
    · simp at h
    · exact href.sat t lim db as m h
  · intro t lim db as core h
    simp only [Example.shortCores] at h
    split at h
    · next hn =>
      simp only [Answer.unsat.injEq] at h
      refine ⟨fun l hl => ?_, fun m hm => absurd hm (hu db hn m)⟩
      rw [← h] at hl
      split at hl
      · obtain ⟨l', hl', rfl⟩ := List.mem_map.1 hl
        simpa using List.mem_of_mem_take hl'
      · split at hl
        · obtain ⟨l', hl', rfl⟩ := List.mem_map.1 hl
          simpa using hl'
        · simp at hl
    · exact href.unsat t lim db as core h
  · intro t db as h
    simp only [Example.shortCores] at h
    split at h
    · simp at h
    · exact href.interrupted t db as h

/-- Feasibility is needed in C47: on an unsatisfiable instance the minimization of a core may leave an empty core. The
code takes the weight of an empty core to be `usize::MAX`; adding it to the offset overflows. In a debug build this is a
panic. -/
theorem coreBoost_unsat_panic : ∃ (inst : Instance) (env : Env) (opts : KernelOptions),
    Setting inst defaultBlockingClause opts env ∧ NoDupCores env ∧ NoDupLits inst ∧ opts.coreMinimization = true ∧
    Example.endsWith (.error .panic) (Example.boostEnd inst env .pMinimal opts {}) = true := by
  refine ⟨Example.noSol, Example.shortCores true, { coreMinimization := true }, Example.noSol_setting rfl
    (Example.shortCores_correct true), ?_, by unfold NoDupLits; decide, rfl, by decide +kernel⟩
  intro t lim db as core h hn
  simp only [Example.shortCores] at h
  split at h
  · simp only [Answer.unsat.injEq] at h
    rw [← h]
    split
    · exact nodup_map_not (hn.sublist (List.take_sublist _ _))
    · split
      · exact nodup_map_not hn
      · exact List.nodup_nil
  · exact refEnv_noDupCores true t lim db as core h hn

/-! ## C19 -/

theorem coreBoost_called {fuel : Nat} {cb : CbOptions} (h : s.io.stats.nSolveCalls ≠ 0) :
    coreBoost D fuel cb env s = (.error .error, s) := by
  unfold coreBoost
  show (if s.io.stats.nSolveCalls ≠ 0 then stop .error else _ : M P C Bool) env s = _
  rw [if_pos h]
  rfl

theorem solve_called (alg : Alg) (fuel : Nat) (limits : Limits) (env : Env) (s : Slv P C) :
    (alg.solve fuel limits env s).2.io.stats.nSolveCalls ≠ 0 := by
  have h := (calledLogic env).solve (d := 0) (s := s) alg fuel limits (Nat.succ_ne_zero _)
  unfold wp at h
  generalize alg.solve fuel limits env s = r at h
  obtain ⟨r, s'⟩ := r
  cases r with
  | ok _ => rcases h with h | ⟨-, h⟩ <;> exact h
  | error _ => exact h

/-- C19: after any history of calls in which `solve` was called, whatever it returned, core boosting returns an error and
changes nothing. Nothing is assumed of oracle and encodings. -/
theorem coreBoost_refused (alg : Alg) (calls : List CallB) (hc : ∃ fuel limits, .call (.solve fuel limits) ∈ calls)
    (fuel : Nat) (cb : CbOptions) :
    coreBoost D fuel cb env (alg.callsB D env calls s) = (.error .error, alg.callsB D env calls s) := by
  refine coreBoost_called ?_
  have hkeep : ∀ (calls : List CallB) (s : Slv P C), s.io.stats.nSolveCalls ≠ 0 →
      (alg.callsB D env calls s).io.stats.nSolveCalls ≠ 0 := by
    intro calls
    induction calls with
    | nil => exact fun s h => h
    | cons c cs ih =>
      intro s h
      cases c with
      | coreBoost fuel cb => exact ih _ (by rw [coreBoost_called h]; exact h)
      | call c =>
        cases c with
        | attachLogger => exact ih _ h
        | detachLogger => exact ih _ h
        | solve fuel limits => exact ih _ (solve_called alg fuel limits env s)
  obtain ⟨f, l, hc⟩ := hc
  induction calls generalizing s with
  | nil => simp at hc
  | cons c cs ih =>
    rcases List.mem_cons.1 hc with rfl | hc
    · exact hkeep cs _ (solve_called alg f l env s)
    · cases c <;> exact ih ‹_›

/-- A history with core boosting and a call to `solve`; the second attempt at core boosting is refused. -/
example : ∃ fuel limits, CallB.call (.solve fuel limits) ∈
    [.call .attachLogger, .coreBoost 50 {}, .call (.solve 50 Limits.none), .call .detachLogger] := ⟨_, _, by simp; exact ⟨rfl, rfl⟩⟩

/-! ## C25 -/

/-- The solver stores the clauses it was built with, if asked to. -/
theorem started_cnf {alg : Alg} (hwf : WellFormed inst) (h0 : Started alg inst bcg opts s) (hst : opts.storeCnf = true) :
    s.k.origCnf = some inst.clauses := (fresh_fine hwf (started_fresh h0)).cnf hst

theorem wp_logEvent_io {Q : Unit → Slv P C → Prop} {E : Stop → Slv P C → Prop} (ev : LogEvent)
    (hQ : ∀ io, Q () { s with io := io }) (hE : ∀ io, E .error { s with io := io }) : wp env (logEvent ev) Q E s := by
  unfold wp logEvent
  cases s.io.logger with
  | none => exact hQ s.io
  | some l =>
    simp only
    cases env.logOk s.io.tick with
    | true => exact hQ _
    | false => exact hE _

/-- C25: whatever was added to the oracle before, resetting it leaves it with the clauses that were stored, and without
these it returns an error and changes nothing. -/
theorem resetOracle_clauses (b : Bool) (cnf : List Clause) (hc : s.k.opts.storeCnf = true) (hcnf : s.k.origCnf = some cnf)
    (hr : (resetOracle b env s).1 = .ok ()) : (resetOracle b env s).2.k.db = cnf ∧
      (resetOracle b env s).2.encs = s.encs ∧ (resetOracle b env s).2.front = s.front ∧
      (resetOracle b env s).2.k.objs = s.k.objs ∧
      (resetOracle b env s).2.k.vm.nextVar = if b then min s.k.vm.nextVar (s.k.vm.maxEncVar + 1) else s.k.vm.nextVar := by
  have h : wp env (resetOracle b) (fun _ s' => s'.k.db = cnf ∧ s'.encs = s.encs ∧ s'.front = s.front ∧
      s'.k.objs = s.k.objs ∧ s'.k.vm.nextVar = if b then min s.k.vm.nextVar (s.k.vm.maxEncVar + 1) else s.k.vm.nextVar)
      (fun _ _ => True) s := by
    unfold resetOracle logRoutineStart logRoutineEnd
    rw [wp_bind, wp_getS]
    simp only [hc, if_true]
    rw [wp_bind]
    refine wp_logEvent_io _ (fun io => ?_) (fun _ => trivial)
    have hfin : wp env (do
        let cnf ← unwrap s.k.origCnf
        modifyS fun s => { s with k := { s.k with
          db := cnf
          ostate := .input
          conflLimited := false
          vm := if b then s.k.vm.forgetFrom (s.k.vm.maxEncVar + 1) else s.k.vm } }
        logEvent .routineEnd : M P C Unit) (fun _ s' => s'.k.db = cnf ∧ s'.encs = s.encs ∧ s'.front = s.front ∧
          s'.k.objs = s.k.objs ∧ s'.k.vm.nextVar = if b then min s.k.vm.nextVar (s.k.vm.maxEncVar + 1) else s.k.vm.nextVar)
        (fun _ _ => True) { s with io := io } := by
      rw [hcnf, wp_bind, wp_unwrap_some, wp_bind, wp_modifyS]
      refine wp_logEvent_io _ (fun io' => ⟨rfl, rfl, rfl, rfl, ?_⟩) (fun _ => trivial)
      cases b <;> rfl
    cases b with
    | true => rw [if_pos rfl, wp_bind, wp_pure]; exact hfin
    | false =>
      rw [if_neg (by simp), wp_bind]
      cases s.k.vm.maxVar with
      | none => rw [wp_unwrap_none]; trivial
      | some v => rw [wp_unwrap_some, wp_bind, wp_pure]; exact hfin
  unfold wp at h
  generalize resetOracle b env s = r at h hr
  obtain ⟨r, s'⟩ := r
  simp only at hr
  subst hr
  exact h

/-- The hypotheses are met after core boosting, which has added clauses and used new variables. -/
def Example.resetAfter (inst : Instance) (opts : KernelOptions) : Bool :=
  match Alg.pMinimal.new (P := RefTot.RefTree 1) (C := RefTot.RefTree 0) inst defaultBlockingClause opts with
  | none => false
  | some s =>
    let s1 := (coreBoost RefTot 50 {} refEnv s).2
    let s2 := (Alg.pMinimal.solve 50 Limits.none refEnv s1).2
    let r := resetOracle true refEnv s2
    s2.k.opts.storeCnf && s2.k.origCnf == some inst.clauses && inst.clauses.length < s2.k.db.length &&
      s.k.vm.nextVar < s2.k.vm.nextVar && r.2.k.db == inst.clauses && r.2.k.vm.nextVar == s.k.vm.nextVar &&
      match r.1 with
      | .ok () => true
      | .error _ => false

example : Example.resetAfter Example.inst { storeCnf := true } := by decide +kernel

/-- C25: core boosting with a reset leaves the oracle with the clauses of the instance, and the variables used beyond
those of the instance are forgotten. -/
theorem coreBoost_reset_clauses {alg : Alg} {cb : CbOptions} {fuel : Nat} (hs : Setting inst bcg opts env)
    (nd : NoDupCores env) (hn : NoDupLits inst) (h0 : Started alg inst bcg opts s) (ha : cb.after = .reset)
    (hb : (coreBoost D fuel cb env s).1 = .ok true) : (coreBoost D fuel cb env s).2.k.db = inst.clauses :=
  (boosted_of_ok hs nd hn h0 hb).2.2 ha

theorem resetOracle_refused (b : Bool) (hc : s.k.opts.storeCnf = false) : resetOracle b env s = (.error .error, s) := by
  unfold resetOracle
  show (if s.k.opts.storeCnf then _ else stop .error : M P C Unit) env s = _
  rw [hc]
  rfl

end Scuttle
