import Verif.Props.CoreBoost
import Verif.Props.Solve
import Verif.Proof.ResEnc

/-!
# C66: core boosting that was cut short

`core_boost` may return early, because of the interrupt flag or because the logger fails. The claim is that the solver
can still be used: a following call to `solve` behaves as for a fresh solver. This does not hold with core exhaustion or
core minimization, see `cutBoost_counterexample`: the limit on the conflicts per oracle call then stays in force.
-/

set_option linter.unusedSectionVars false

namespace Scuttle

open Spec

variable {P C D : Type} [UbEnc P] [UbEnc C] [LawfulUbEnc P] [LawfulUbEnc C] [TotDb D] [LawfulTotDb D] [MergeEnc P C D]
  [LawfulMergeEnc P C D]
variable {env : Env} {s : Slv P C} {inst : Instance} {opts : KernelOptions} {bcg : Assignment → Clause} {limits : Limits}

/-- Core boosting ended early, because of an interrupt or because of an error of the logger. -/
def Spec.CutShortBoost : Except Stop Bool → Prop
  | .error (.terminated _) => True
  | .error .error => True
  | _ => False

theorem Left.constZero {s0 : Slv P C} (h : Left inst opts bcg s0 s) (hpos : PosUnit inst) (hflat : NotFlat inst) :
    ConstZero (pbAt inst opts bcg s) s := by
  intro i e o he ho hc t ht
  have hf : ∀ t, (pbAt inst opts bcg s).Sol t ↔ (problem inst).Feasible t := fun t =>
    (feasible_iff (opts := opts) (bcg := bcg) (inst := inst.withObjs s.k.objs) t).symm
  obtain ⟨c, hcost⟩ := h.const i e o he ho hc
  obtain ⟨o', ho', heq⟩ := h.rel.mem (List.mem_of_getElem? ho)
  have hval : ∀ t, (problem inst).Feasible t → objValue o' t = (c * o'.unitWeight : Nat) + o'.offset := by
    intro t ht
    rw [objValue_eq]
    unfold extVal
    rw [← lb_icost heq, hcost t ht]
  have hfl := hflat o' ho' (fun a b ha hb => by rw [hval a ha, hval b hb]) t ((hf t).1 ht)
  rw [hval t ((hf t).1 ht)] at hfl
  have h0 : c * o'.unitWeight = 0 := by omega
  have := unitWeight_pos hpos ho'
  rw [hcost t ((hf t).1 ht)]
  rcases Nat.mul_eq_zero.1 h0 with h | h <;> omega

theorem left_of_cut {alg : Alg} {cb : CbOptions} {fuel : Nat} (hs : Setting inst bcg opts env) (nd : NoDupCores env)
    (hn : NoDupLits inst) (h0 : Started alg inst bcg opts s)
    (ha : cb.after = .nothing ∨ cb.after = .reset ∧ opts.reserveEncVars = false)
    (hb : CutShortBoost (coreBoost D fuel cb env s).1) :
    Left inst opts bcg s (coreBoost D fuel cb env s).2 ∧ IoBase inst.objs.length (coreBoost D fuel cb env s).2.io := by
  have h := wp_coreBoost (D := D) (fuel := fuel) (cb := cb) hs nd hn (fresh_fine hs.wf (started_fresh h0))
  unfold wp at h
  cases hr : coreBoost D fuel cb env s with
  | mk r s1 =>
    rw [hr] at h hb
    have key : CbLeft inst opts bcg cb s s1 → Left inst opts bcg s s1 := fun hl => by
      rcases ha with ha | ⟨ha, hres⟩
      · exact hl.nothing ha
      · exact (hl.reset ha (fresh_pristine hs.wf (started_fresh h0) hres)).1
    match r, hb, h with
    | .error (.terminated _), _, h => exact ⟨key h.2, h.1⟩
    | .error .error, _, h => exact ⟨key h.1.2, h.1.1⟩

theorem Left.run {s0 s1 : Slv P C} (h1 : Left inst opts bcg s0 s1) (h2 : IoBase inst.objs.length s1.io) (alg : Alg)
    (hs : Setting inst bcg opts env) (hl : LimitsFine env limits) (h0 : Started alg inst bcg opts s0)
    (hflat : alg = .biOptSat → NotFlat inst) (hlim : s1.k.conflLimited = false) (fuel' : Nat) :
    ∃ os, LbOnly inst.objs os ∧ iterBound (inst.withObjs os) = iterBound inst ∧
      Setting (inst.withObjs os) bcg opts env ∧
      RunOK ((inst.withObjs os).pb opts bcg) env (iterBound (inst.withObjs os)) fuel'
        (alg.solve fuel' limits env s1).1 (alg.solve fuel' limits env s1).2 := by
  have hf := fresh_ok hs.wf (started_fresh h0)
  have hfr : s1.front = [] := h1.frame.front.trans hf.front
  have hinv := h1.inv
  rw [unl_of hlim] at hinv
  have hp : Prepared alg (inst.withObjs s1.k.objs) bcg opts s1 := by
    refine ⟨⟨hinv, ⟨fun t _ hn => absurd trivial hn, fun t _ _ c hc => by simp at hc⟩, by rw [hfr]; exact ⟨.nil, .nil⟩,
      by rw [hfr]; exact .nil⟩, h1.frame.fence.trans hf.fence, tops_le hinv.len h1.tops, ⟨h2.1.trans h1.rel.length.symm, h2.2⟩, ?_,
      h1.frame.opts.trans hf.opts, h1.frame.bcg.trans hf.bcg⟩
    rintro rfl
    exact ⟨h1.rel.length.trans (started_bos h0), h1.constZero hs.unit (hflat rfl)⟩
  have hs' := h1.rel.setting hs
  refine ⟨_, h1.rel, ?_, hs', prepared_run alg hs' hl hp fuel'⟩
  have hmc := h1.rel.maxCosts
  have hmap : ∀ (f : Nat → Nat), (inst.withObjs s1.k.objs).objs.map (fun o => f (maxCost o)) =
      inst.objs.map fun o => f (maxCost o) := by
    intro f
    have := congrArg (List.map f) hmc
    simp only [List.map_map] at this
    exact this
  unfold iterBound
  rw [hmap (fun x => x + 1), hmap (fun x => x)]
  rfl

/-- C66: core boosting ended early, and `solve` is called afterwards. If that call returns `Done`, the front is exactly the
Pareto front; however it ends, all points are non-dominated and all solutions attain their costs; there is no panic, no
error unless the logger fails, and the number of loop iterations is bounded as without core boosting. Missing: core
exhaustion and core minimization, for which the claim does not hold, see `cutBoost_counterexample`, and a reset of the
oracle after core boosting if variables have been reserved for the encodings, since the reset gives these variables away
while the encodings still use them; BiOptSat needs `NotFlat` as in C48. -/
theorem cutBoost_partial (alg : Alg) {cb : CbOptions} (hs : Setting inst bcg opts env) (hl : LimitsFine env limits)
    (nd : NoDupCores env) (hn : NoDupLits inst) (h0 : Started alg inst bcg opts s)
    (hflat : alg = .biOptSat → NotFlat inst) (ha : cb.after = .nothing ∨ cb.after = .reset ∧ opts.reserveEncVars = false) (hex : opts.coreExhaustion = false)
    (hmin : opts.coreMinimization = false) (fuel fuel' : Nat) (hb : CutShortBoost (coreBoost D fuel cb env s).1) :
    ((alg.solve fuel' limits env (coreBoost D fuel cb env s).2).1 = .ok () →
      ExactFront inst (alg.solve fuel' limits env (coreBoost D fuel cb env s).2).2.front) ∧
    SoundFront inst (alg.solve fuel' limits env (coreBoost D fuel cb env s).2).2.front ∧
    SolutionsOK inst (alg.solve fuel' limits env (coreBoost D fuel cb env s).2).2.front ∧
    (alg.solve fuel' limits env (coreBoost D fuel cb env s).2).1 ≠ .error .panic ∧
    ((∀ t, env.logOk t = true) → (alg.solve fuel' limits env (coreBoost D fuel cb env s).2).1 ≠ .error .error) ∧
    (iterBound inst < fuel' → (alg.solve fuel' limits env (coreBoost D fuel cb env s).2).1 ≠ .error .fuel) := by
  obtain ⟨hleft, hio⟩ := left_of_cut hs nd hn h0 ha hb
  have hopt : (coreBoost D fuel cb env s).2.k.opts = opts :=
    hleft.frame.opts.trans (fresh_ok hs.wf (started_fresh h0)).opts
  have hlim : (coreBoost D fuel cb env s).2.k.conflLimited = false := by
    by_contra h
    rcases hleft.lim (by simpa using h) with h | h
    · rw [hopt, hex] at h; cases h
    · rw [hopt, hmin] at h; cases h
  obtain ⟨os, h1, h2, h3, h4⟩ := hleft.run hio alg hs hl h0 hflat hlim fuel'
  obtain ⟨cs, h5, -⟩ := h4.front
  refine ⟨fun hdone => ?_, ?_, ?_, h4.panic, fun hlog he => ?_, fun hN h => ?_⟩
  · rw [hdone] at h4
    exact (h4.exactFront h3.unit).of_lb h1
  · have := h5.soundFront h3.unit
    exact ⟨by have := this.sound; rw [h1.problem] at this; exact this, this.once⟩
  · have := h5.solutionsOK
    exact ⟨this.some, by have := this.attain; rw [h1.problem] at this; exact this⟩
  · obtain ⟨t, ht⟩ := h4.error he
    rw [hlog t] at ht
    simp at ht
  · have := h4.fuel h
    omega

/-! ## Examples -/

/-- The reference environment in which the logger fails once; after that, an oracle call with a limit on the conflicts is
given up. -/
def Example.logFails (k : Nat) : Env := { refEnv false with
  logOk := fun t => decide (t ≠ k)
  oracle := fun t lim db as => if lim && decide (k < t) then .interrupted else refOracle db as }

theorem Example.logFails_setting (k : Nat) (opts : KernelOptions) :
    Setting Example.inst defaultBlockingClause opts (Example.logFails k) := by
  have h := Example.setting opts
  have hc := refEnv_correct false
  refine ⟨h.wf, h.fits, h.unit, h.enum, ⟨?_, ?_, ?_, hc.flip⟩, fun ht => by simp [Example.logFails, refEnv] at ht⟩
  · intro t lim db as m hm
    simp only [Example.logFails] at hm
    split at hm
    · cases hm
    · exact hc.sat t lim db as m hm
  · intro t lim db as core hm
    simp only [Example.logFails] at hm
    split at hm
    · cases hm
    · exact hc.unsat t lim db as core hm
  · intro t db as hm
    simp only [Example.logFails, Bool.false_and, Bool.false_eq_true, if_false] at hm
    exact absurd (hc.interrupted t db as hm (t + 1) (by omega)) (by simp [refEnv])

theorem Example.logFails_noDupCores (k : Nat) : NoDupCores (Example.logFails k) := by
  intro t lim db as core h
  simp only [Example.logFails] at h
  split at h
  · cases h
  · exact refEnv_noDupCores false t lim db as core h

/-- Core boosting followed by `solve`: how both ended, and the costs in the front. -/
def Example.boostThen (env : Env) (alg : Alg) (opts : KernelOptions) (cb : CbOptions := {}) :
    Option (Except Stop Bool × Except Stop Unit × List (List Int)) :=
  (alg.new (P := RefTot.RefTree 1) (C := RefTot.RefTree 0) Example.inst defaultBlockingClause opts).map fun s =>
    let r := coreBoost RefTot 50 cb env s.attachLogger
    let r' := alg.solve 100 Limits.none env r.2
    (r.1, r'.1, r'.2.front.map NonDomPoint.costs)

/-- The logger fails during core boosting, and the following run finds the two points. -/
example : (Example.boostThen (Example.logFails 7) .pMinimal {}).any (fun
    | (.error .error, .ok (), cs) => cs == [[3, 1], [0, 6]]
    | _ => false) := by decide +kernel
example : (Example.boostThen (Example.logFails 10) .lowerBounding {}).any (fun
    | (.error .error, .ok (), cs) => cs == [[0, 6], [3, 1]]
    | _ => false) := by decide +kernel
example : (Example.boostThen (Example.logFails 10) .biOptSat {}).any (fun
    | (.error .error, .ok (), cs) => cs == [[0, 6], [3, 1]]
    | _ => false) := by decide +kernel

/-- The logger fails after the oracle has been reset: in the message at the end of the reset, and while the encodings are
replaced. -/
example : ∀ k ∈ [30, 32, 35], (Example.boostThen (Example.logFails k) .pMinimal { storeCnf := true } { after := .reset }).any (fun
    | (.error .error, .ok (), cs) => cs == [[3, 1], [0, 6]]
    | _ => false) := by decide +kernel

/-- With core exhaustion the claim of `cutBoost_partial` does not hold, although the oracle is correct and never gives up
without a limit: the logger fails right before an oracle call of core exhaustion, which leaves the limit on conflicts in
force for the next oracle call (coreguided.rs:620-639). LowerBounding
then panics (lowerbounding.rs:329), and the other algorithms return an error though the logger works. -/
theorem cutBoost_counterexample : ∃ env : Env,
    Setting Example.inst defaultBlockingClause { coreExhaustion := true } env ∧ NoDupCores env ∧ NoDupLits Example.inst ∧
    NotFlat Example.inst ∧ LimitsFine env Limits.none ∧
    (∀ alg ∈ [Alg.pMinimal, .lowerBounding, .biOptSat], ∃ s : Slv (RefTot.RefTree 1) (RefTot.RefTree 0),
      Started alg Example.inst defaultBlockingClause { coreExhaustion := true } s ∧
      CutShortBoost (coreBoost RefTot 50 {} env s).1 ∧
      (alg.solve 100 Limits.none env (coreBoost RefTot 50 {} env s).2).1 =
        .error (if alg = .lowerBounding then .panic else .error)) := by
  refine ⟨Example.logFails 14, Example.logFails_setting 14 _, Example.logFails_noDupCores 14, Example.noDupLits,
    Example.notFlat, fun h => by simp [Example.logFails, refEnv] at h, ?_⟩
  have key : ∀ alg ∈ [Alg.pMinimal, .lowerBounding, .biOptSat],
      (Example.boostThen (Example.logFails 14) alg { coreExhaustion := true }).any (fun
        | (.error .error, .error .panic, _) => decide (alg = .lowerBounding)
        | (.error .error, .error .error, _) => decide (alg ≠ .lowerBounding)
        | _ => false) = true := by decide +kernel
  intro alg ha
  have h := key alg ha
  unfold Example.boostThen at h
  rw [Option.any_map, Option.any_eq_true] at h
  obtain ⟨s, hs, h⟩ := h
  refine ⟨s.attachLogger, ⟨s, hs, .inr rfl⟩, ?_, ?_⟩
  · simp only [Function.comp_apply] at h
    split at h
    · next h1 => rw [(Prod.mk.inj h1).1]; trivial
    · next h1 => rw [(Prod.mk.inj h1).1]; trivial
    · cases h
  · simp only [Function.comp_apply] at h
    split at h
    · next h1 =>
      rw [(Prod.mk.inj (Prod.mk.inj h1).2).1, if_pos (by simpa using h)]
    · next h1 =>
      rw [(Prod.mk.inj (Prod.mk.inj h1).2).1, if_neg (by simpa using h)]
    · cases h

/-- With a reset of the oracle and variables reserved for the encodings the claim of `cutBoost_partial` does not hold
either: the logger fails at the end of the reset, so that the encodings with the reserved variables stay in place while
the variables are given away a second time (algs.rs:1007-1011, lowerbounding.rs:351-365). LowerBounding then returns
`Done` with an incomplete front. -/
theorem cutBoost_reserve_counterexample : ∃ env : Env,
    Setting Example.inst defaultBlockingClause { storeCnf := true, reserveEncVars := true } env ∧ NoDupCores env ∧
    NoDupLits Example.inst ∧ LimitsFine env Limits.none ∧
    ∃ s : Slv (ResEnc 1) (ResEnc 0),
      Started .lowerBounding Example.inst defaultBlockingClause { storeCnf := true, reserveEncVars := true } s ∧
      CutShortBoost (coreBoost RefTot 50 { after := .reset } env s).1 ∧
      (Alg.lowerBounding.solve 100 Limits.none env (coreBoost RefTot 50 { after := .reset } env s).2).1 = .ok () ∧
      ¬ ExactFront Example.inst
        (Alg.lowerBounding.solve 100 Limits.none env (coreBoost RefTot 50 { after := .reset } env s).2).2.front := by
  refine ⟨Example.logFails 30, Example.logFails_setting 30 _, Example.logFails_noDupCores 30, Example.noDupLits,
    fun h => by simp [Example.logFails, refEnv] at h, ?_⟩
  have h1 : (Alg.new (P := ResEnc 1) (C := ResEnc 0) .lowerBounding Example.inst defaultBlockingClause
      { storeCnf := true, reserveEncVars := true }).any (fun s =>
        let r := coreBoost RefTot 50 { after := .reset } (Example.logFails 30) s.attachLogger
        let r' := Alg.lowerBounding.solve 100 Limits.none (Example.logFails 30) r.2
        (match r.1 with | .error .error => true | _ => false) &&
          Example.isDone [[0, 6]] (some (r'.1, r'.2.front))) = true := by decide +kernel
  -- without core boosting there are two points
  have h2 : (Alg.new (P := RefEnc 1) (C := RefEnc 0) .lowerBounding Example.inst defaultBlockingClause {}).any (fun s =>
        Example.isDone [[0, 6], [3, 1]] (some ((Alg.lowerBounding.solve 50 Limits.none (refEnv true) s).1,
          (Alg.lowerBounding.solve 50 Limits.none (refEnv true) s).2.front))) = true := by decide +kernel
  have key : ∀ {r : Except Stop Unit} {f : ParetoFront Assignment} {c}, Example.isDone c (some (r, f)) = true →
      r = .ok () ∧ f.map NonDomPoint.costs = c := by
    intro r f c h
    cases r with
    | error e => simp [Example.isDone] at h
    | ok u => exact ⟨rfl, by simpa [Example.isDone] using h⟩
  rw [Option.any_eq_true] at h1 h2
  obtain ⟨s1, hs1, h1⟩ := h1
  obtain ⟨s2, hs2, h2⟩ := h2
  simp only [Bool.and_eq_true] at h1
  obtain ⟨h0, h1⟩ := h1
  obtain ⟨h1, h1'⟩ := key h1
  obtain ⟨h2, h2'⟩ := key h2
  refine ⟨s1.attachLogger, ⟨s1, hs1, .inr rfl⟩, ?_, h1, fun hex => ?_⟩
  · split at h0
    · next h => rw [h]; trivial
    · cases h0
  · have h3 := lowerBounding_exact_front (limits := Limits.none) (Example.setting {})
      (fun _ => ⟨by simp [Limits.none], by simp [Limits.none], by simp [Limits.none], by simp [Limits.none]⟩)
      ⟨s2, hs2, .inl rfl⟩ 50 h2
    have h4 := (h3.exact [3, 1]).1 (by rw [h2']; simp)
    have h5 := (hex.exact [3, 1]).2 h4
    rw [h1'] at h5
    simp at h5

end Scuttle
