import Verif.Props.CutBoost
import Verif.Props.Driver

/-!
# C68: repeated core boosting

`core_boost` may be called any number of times before `solve`, with different options, also again after a call that was
cut short. Each call starts from the encodings and the lower bounds that the calls before left behind.
-/

set_option linter.unusedSectionVars false

namespace Scuttle

open Spec

variable {P C D : Type} [UbEnc P] [UbEnc C] [LawfulUbEnc P] [LawfulUbEnc C] [TotDb D] [LawfulTotDb D] [MergeEnc P C D]
  [LawfulMergeEnc P C D]
variable {env : Env} {s s1 : Slv P C} {inst : Instance} {opts : KernelOptions} {bcg : Assignment → Clause} {limits : Limits}

/-- `core_boost` is called any number of times. Each call returns `Done(true)`, or it is cut short, the latter without core
exhaustion and core minimization. The flag tells whether the oracle is free of variables of the encodings: that is so at
first, unless variables have been reserved, and after a reset. A call with a reset may only be cut short in that case. -/
inductive Spec.Boosts (D : Type) [TotDb D] [MergeEnc P C D] (opts : KernelOptions) (env : Env) :
    Slv P C → Bool → Slv P C → Prop
  | refl (s : Slv P C) : Boosts D opts env s (!opts.reserveEncVars) s
  | done {s s1 : Slv P C} {clean : Bool} (fuel : Nat) (cb : CbOptions) : Boosts D opts env s clean s1 →
      (coreBoost D fuel cb env s1).1 = .ok true →
      Boosts D opts env s (decide (cb.after = .reset)) (coreBoost D fuel cb env s1).2
  | cut {s s1 : Slv P C} {clean : Bool} (fuel : Nat) (cb : CbOptions) : Boosts D opts env s clean s1 →
      CutShortBoost (coreBoost D fuel cb env s1).1 → cb.after = .nothing ∨ cb.after = .reset ∧ clean = true →
      opts.coreExhaustion = false → opts.coreMinimization = false →
      Boosts D opts env s (decide (cb.after = .reset)) (coreBoost D fuel cb env s1).2

/-- The state between the calls. -/
structure Reboost (inst : Instance) (opts : KernelOptions) (bcg : Assignment → Clause) (s0 : Slv P C) (clean : Bool)
    (s : Slv P C) : Prop where
  fine : Fine inst opts bcg s
  left : Left inst opts bcg s0 s
  frame : ∃ d, CbI s0.front 0 s0.io.logger.isSome True [] none d s
  clean : clean = true → Pristine inst s

theorem Reboost.start {alg : Alg} (hwf : WellFormed inst) (h0 : Started alg inst bcg opts s) :
    Reboost inst opts bcg s (!opts.reserveEncVars) s := by
  have hf := fresh_fine hwf (started_fresh h0)
  have ok := fresh_ok hwf (started_fresh h0)
  refine ⟨hf, ⟨hf.rel, ?_, Frame.refl _, hf.tops, hf.value, hf.const, ?_⟩, ⟨0, rfl, hf.calls, ?_, rfl, fun _ => ok.lims⟩,
    fun h => fresh_pristine hwf (started_fresh h0) (by simpa using h)⟩
  · rw [unl_of hf.inv.unlimited]; exact hf.inv
  · rw [hf.inv.unlimited]; simp
  · intro l h
    rcases started_logger h0 with h' | h' <;> rw [h'] at h <;> cases h
    exact ⟨.zero .nil, rfl, by simp, by simp⟩

theorem Reboost.step {s0 s2 : Slv P C} {b b' : Bool} (h : Reboost inst opts bcg s0 b s1) (hl : Left inst opts bcg s1 s2)
    (hlim : s2.k.conflLimited = false) (hb : IoBase inst.objs.length s2.io)
    (hc : ∃ d, CbI s0.front 0 s0.io.logger.isSome True [] none d s2) (hp : b' = true → Pristine inst s2) :
    Reboost inst opts bcg s0 b' s2 := by
  obtain ⟨d, hc⟩ := hc
  have hinv := hl.inv
  rw [unl_of hlim] at hinv
  refine ⟨⟨hl.rel, hinv, hl.tops, hl.const, hb, hl.frame.front.trans h.fine.front, hl.frame.opts.trans h.fine.kopts,
    hl.encConst, fun hst => hl.frame.origCnf.trans (h.fine.cnf hst), ?_, hc.calls⟩, ?_, ⟨d, hc⟩, hp⟩
  · rw [hc.lims trivial]
    constructor <;> simp [Limits.none]
  · exact ⟨hl.rel, hl.inv, h.left.frame.trans hl.frame, hl.tops, hl.const, hl.encConst, hl.lim⟩

theorem Boosts.reboost {alg : Alg} {s0 : Slv P C} {b : Bool} (hs : Setting inst bcg opts env) (nd : NoDupCores env)
    (hn : NoDupLits inst) (h0 : Started alg inst bcg opts s0) (h : Boosts D opts env s0 b s) :
    Reboost inst opts bcg s0 b s := by
  induction h with
  | refl => exact .start hs.wf h0
  | @done s1 b fuel cb _ hb ih =>
    obtain ⟨d, hc⟩ := ih.frame
    have hk := cbk_coreBoost (D := D) (env := env) fuel cb d s1 hc
    have h := wp_coreBoost (D := D) (fuel := fuel) (cb := cb) hs nd hn ih.fine
    unfold wp at h hk
    cases hr : coreBoost D fuel cb env s1 with
    | mk r s2 =>
      rw [hr] at h hk hb
      simp only at hb
      subst hb
      obtain ⟨hio, -, h⟩ := h
      have hbo := (h rfl).1
      exact ih.step hbo.left hbo.core.inv.unlimited hio.base ⟨d, hk⟩ fun hrs => ((h rfl).2 (by simpa using hrs)).2.2
  | @cut s1 b fuel cb _ hb ha hex hmin ih =>
    obtain ⟨d, hc⟩ := ih.frame
    have hk := cbk_coreBoost (D := D) (env := env) fuel cb d s1 hc
    have h := wp_coreBoost (D := D) (fuel := fuel) (cb := cb) hs nd hn ih.fine
    unfold wp at h hk
    cases hr : coreBoost D fuel cb env s1 with
    | mk r s2 =>
      rw [hr] at h hk hb
      have key : CbLeft inst opts bcg cb s1 s2 → IoBase inst.objs.length s2.io →
          (∃ d, CbI s0.front 0 s0.io.logger.isSome True [] none d s2) →
          Reboost inst opts bcg s0 (decide (cb.after = .reset)) s2 := by
        intro hcl hio hk
        have hl : Left inst opts bcg s1 s2 ∧ (cb.after = .reset → Pristine inst s2) := by
          rcases ha with ha | ⟨ha, hc⟩
          · exact ⟨hcl.nothing ha, fun h => by rw [ha] at h; cases h⟩
          · have := hcl.reset ha (ih.clean hc)
            exact ⟨this.1, fun _ => this.2⟩
        refine ih.step hl.1 ?_ hio hk fun h => hl.2 (by simpa using h)
        by_contra hlim
        have hopt := hl.1.frame.opts.trans ih.fine.kopts
        rcases hl.1.lim (by simpa using hlim) with h | h
        · rw [hopt, hex] at h; cases h
        · rw [hopt, hmin] at h; cases h
      match r, hb, h, hk with
      | .error (.terminated _), _, h, hk => exact key h.2 h.1 hk
      | .error .error, _, h, hk => exact key h.1.2 h.1.1 hk

/-- C68: `solve` after any number of calls to `core_boost`. If it returns `Done`, the front is exactly the Pareto front;
however it ends, all points are non-dominated and all solutions attain their costs; there is no panic, no error unless
the logger fails, and the number of loop iterations is bounded as without core boosting. -/
theorem boosts_solve (alg : Alg) (hs : Setting inst bcg opts env) (hl : LimitsFine env limits)
    (nd : NoDupCores env) (hn : NoDupLits inst) (h0 : Started alg inst bcg opts s)
    (hflat : alg = .biOptSat → NotFlat inst) {b : Bool} (hb : Boosts D opts env s b s1) (fuel : Nat) :
    ((alg.solve fuel limits env s1).1 = .ok () → ExactFront inst (alg.solve fuel limits env s1).2.front) ∧
    SoundFront inst (alg.solve fuel limits env s1).2.front ∧
    SolutionsOK inst (alg.solve fuel limits env s1).2.front ∧
    (alg.solve fuel limits env s1).1 ≠ .error .panic ∧
    ((∀ t, env.logOk t = true) → (alg.solve fuel limits env s1).1 ≠ .error .error) ∧
    (iterBound inst < fuel → (alg.solve fuel limits env s1).1 ≠ .error .fuel) := by
  have hr := Boosts.reboost hs nd hn h0 hb
  obtain ⟨os, h1, h2, h3, h4⟩ := hr.left.run hr.fine.base alg hs hl h0 hflat hr.fine.inv.unlimited fuel
  obtain ⟨cs, h5, -⟩ := h4.front
  refine ⟨fun hdone => ?_, ?_, ?_, h4.panic, fun hlog he => ?_, fun hN h => ?_⟩
  · rw [hdone] at h4
    exact (h4.exactFront h3.unit).of_lb h1
  · have := h5.soundFront h3.unit
    exact ⟨by have := this.sound; rw [h1.problem] at this; exact this, this.once⟩
  · have := h5.solutionsOK
    exact ⟨this.some, by have := this.attain; rw [h1.problem] at this; exact this⟩
  · obtain ⟨t, ht⟩ := h4.error he
    rw [hlog t] at ht
    simp at ht
  · have := h4.fuel h
    omega

/-- C68: every further call to `core_boost` answers as the first one: it does not panic if there is a solution, it returns
`Done(false)` only if there is none, and with `Done(true)` the lower bounds are the minima of the objectives. -/
theorem boosts_again {alg : Alg} {cb : CbOptions} (hs : Setting inst bcg opts env) (nd : NoDupCores env)
    (hn : NoDupLits inst) (h0 : Started alg inst bcg opts s) {b : Bool} (hb : Boosts D opts env s b s1) (fuel : Nat) :
    ((∃ t, (problem inst).Feasible t) → (coreBoost D fuel cb env s1).1 ≠ .error .panic ∧
      (coreBoost D fuel cb env s1).1 ≠ .ok false ∧
      (boostBound inst < fuel → (coreBoost D fuel cb env s1).1 ≠ .error .fuel)) ∧
    ((coreBoost D fuel cb env s1).1 = .ok true →
      List.Forall₂ (fun o o' => ∃ b, o' = o.setLowerBound b ∧
        (∀ t, (problem inst).Feasible t → (b * o.unitWeight : Nat) + o.offset ≤ objValue o t) ∧
        ((o.isConstant = false ∨ ∃ t, (problem inst).Feasible t) →
          ∃ t, (problem inst).Feasible t ∧ objValue o t = (b * o.unitWeight : Nat) + o.offset))
      inst.objs (coreBoost D fuel cb env s1).2.k.objs) := by
  have h := wp_coreBoost (D := D) (fuel := fuel) (cb := cb) hs nd hn (Boosts.reboost hs nd hn h0 hb).fine
  unfold wp at h
  have hfs : (∃ t, (problem inst).Feasible t) → ∃ t, (inst.pb opts bcg).Sol t := fun ⟨t, ht⟩ =>
    ⟨t, (feasible_iff (opts := opts) (bcg := bcg) t).1 ht⟩
  cases hr : coreBoost D fuel cb env s1 with
  | mk r s2 =>
    rw [hr] at h
    refine ⟨fun hf => ⟨?_, ?_, fun hN => ?_⟩, ?_⟩
    · rintro rfl
      exact h (hfs hf)
    · intro h'
      simp only at h'
      subst h'
      exact h.2.1 rfl hf
    · rintro rfl
      have := h (hfs hf)
      omega
    · intro h'
      simp only at h'
      subst h'
      exact (h.2.2 rfl).1.ideal

/-! ## Examples -/

/-- `core_boost` twice, then `solve`: how the calls ended, the lower bounds and the costs in the front. -/
def Example.boostTwice (env : Env) (alg : Alg) (opts : KernelOptions) (cb cb' : CbOptions) :
    Option (Except Stop Bool × Except Stop Bool × List Nat × Except Stop Unit × List (List Int)) :=
  (alg.new (P := RefTot.RefTree 1) (C := RefTot.RefTree 0) Example.inst defaultBlockingClause opts).map fun s =>
    let r := coreBoost RefTot 50 cb env s.attachLogger
    let r' := coreBoost RefTot 50 cb' env r.2
    let r'' := alg.solve 100 Limits.none env r'.2
    (r.1, r'.1, r'.2.k.objs.map Objective.lowerBound, r''.1, r''.2.front.map NonDomPoint.costs)

/-- Both calls return `Done(true)`, and the following run finds the two points. -/
example : (Example.boostTwice (refEnv false) .pMinimal {} {} {}).any (fun
    | (.ok true, .ok true, lbs, .ok (), cs) => lbs == [2, 0] && cs == [[3, 1], [0, 6]]
    | _ => false) := by decide +kernel
/-- The second call uses another way to rewrite the encodings, after a reset by the first one. -/
example : (Example.boostTwice (refEnv false) .lowerBounding { storeCnf := true } { after := .reset } { rebase := true }).any (fun
    | (.ok true, .ok true, lbs, .ok (), cs) => lbs == [2, 0] && cs == [[0, 6], [3, 1]]
    | _ => false) := by decide +kernel
/-- The first call is cut short, the second one is not. -/
example : (Example.boostTwice (Example.logFails 7) .pMinimal {} {} { rebase := true }).any (fun
    | (.error .error, .ok true, lbs, .ok (), cs) => lbs == [2, 0] && cs == [[3, 1], [0, 6]]
    | _ => false) := by decide +kernel
example : (Example.boostTwice (Example.logFails 10) .biOptSat { storeCnf := true } {} { after := .reset }).any (fun
    | (.error .error, .ok true, lbs, .ok (), cs) => lbs == [2, 0] && cs == [[0, 6], [3, 1]]
    | _ => false) := by decide +kernel
/-- Both calls reset the oracle, and the first one is cut short after the reset. -/
example : (Example.boostTwice (Example.logFails 30) .lowerBounding { storeCnf := true } { after := .reset } { after := .reset }).any (fun
    | (.error .error, .ok true, lbs, .ok (), cs) => lbs == [2, 0] && cs == [[0, 6], [3, 1]]
    | _ => false) := by decide +kernel

end Scuttle
