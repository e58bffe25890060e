import Verif.Example

/-!
# C01 to C10 and C16: what a call to `solve` on a fresh solver delivers

All theorems hold for every correct oracle and every lawful encoding; `fuel` bounds the number of loop iterations of the
model and has no counterpart in the code (C06 shows that enough fuel exists).
-/

namespace Scuttle

open Spec

variable {P C : Type} [UbEnc P] [UbEnc C] [LawfulUbEnc P] [LawfulUbEnc C]
variable {env : Env} {s : Slv P C} {inst : Instance} {opts : KernelOptions} {bcg : Assignment → Clause} {limits : Limits}

/-! ## The default blocking clause -/

/-- The default blocking clause generator is a good one if the original variables determine the costs. -/
theorem default_goodBlocking (hwf : WellFormed inst) (hdet : OrigDetermines inst) :
    GoodBlocking inst defaultBlockingClause := by
  intro s x hs hx
  rw [shows_iff] at hx
  subst hx
  have h2 : ∀ (t' : Asg) (c : Clause), (¬ ∃ l ∈ c, LitTrue t' l) ↔ clauseEval t' c = false := by
    intro t' c
    rw [← Bool.not_eq_true, not_iff_not]
    simp [clauseEval, Lit.eval_iff]
  have h3 : ∀ t, clauseEval t (defaultBlockingClause (Assignment.ofModel s (inst.vm.maxOrigVar + 1))) = false ↔
      SameOrig inst s t := by
    intro t
    rw [defaultBlocking_eval]
    unfold AgreeBelow SameOrig
    simp only [Nat.lt_succ_iff]
  refine ⟨fun l hl => ?_, fun t ht => (h2 _ _).2 ((h3 t).2 ht), fun t ht hb => hdet s t hs ht ((h3 t).1 ((h2 _ _).1 hb))⟩
  have := defaultBlocking_vars s _ l hl
  have := hwf.orig
  omega

/-! ## C01, C02, C03 -/

/-- C01: if P-minimal returns `Done` on a fresh solver, its front is exactly the Pareto front. -/
theorem pminimal_exact_front (hs : Setting inst bcg opts env) (hl : LimitsFine env limits)
    (h0 : Started .pMinimal inst bcg opts s) (fuel : Nat)
    (hdone : (Alg.pMinimal.solve fuel limits env s).1 = .ok ()) :
    ExactFront inst (Alg.pMinimal.solve fuel limits env s).2.front := by
  have h := run_ok .pMinimal hs hl h0 fuel
  rw [hdone] at h
  exact h.exactFront hs.unit

/-- C02: the same for LowerBounding. -/
theorem lowerBounding_exact_front (hs : Setting inst bcg opts env) (hl : LimitsFine env limits)
    (h0 : Started .lowerBounding inst bcg opts s) (fuel : Nat)
    (hdone : (Alg.lowerBounding.solve fuel limits env s).1 = .ok ()) :
    ExactFront inst (Alg.lowerBounding.solve fuel limits env s).2.front := by
  have h := run_ok .lowerBounding hs hl h0 fuel
  rw [hdone] at h
  exact h.exactFront hs.unit

/-- C03: the same for BiOptSat. -/
theorem biOptSat_exact_front (hs : Setting inst bcg opts env) (hl : LimitsFine env limits)
    (h0 : Started .biOptSat inst bcg opts s) (fuel : Nat)
    (hdone : (Alg.biOptSat.solve fuel limits env s).1 = .ok ()) :
    ExactFront inst (Alg.biOptSat.solve fuel limits env s).2.front := by
  have h := run_ok .biOptSat hs hl h0 fuel
  rw [hdone] at h
  exact h.exactFront hs.unit

/-- The hypotheses of C01 to C03 are met: `Setting` holds of an example with two points in its front, with a logger, for
each enumeration mode. -/
theorem Example.setting (opts : KernelOptions) : Setting Example.inst defaultBlockingClause opts (refEnv true) where
  wf := Example.wellFormed
  fits := Example.fits
  unit := Example.posUnit
  enum := by
    cases opts.enumeration with
    | noEnum => exact .noEnum _
    | solutions l => exact .solutions _ _ (default_goodBlocking Example.wellFormed Example.determines)
    | pmcss l => exact .pmcss _ _ Example.objsOrig
  oracle := refEnv_correct true
  tight h := by simp [refEnv] at h

/-- Also for an instance in which a relaxation variable is not an original one. -/
theorem Example.relaxed_setting (opts : KernelOptions) (l : Option Nat) (hen : opts.enumeration = .solutions l) :
    Setting Example.relaxed defaultBlockingClause opts (refEnv false) where
  wf := Example.relaxed_wellFormed
  fits := Example.relaxed_fits
  unit := Example.relaxed_posUnit
  enum := by
    rw [hen]
    exact .solutions _ _ (default_goodBlocking Example.relaxed_wellFormed Example.relaxed_determines)
  oracle := refEnv_correct false
  tight h := by simp [refEnv] at h

/-- Runs an algorithm on the example; `none` if the solver cannot be built. -/
def Example.run (alg : Alg) (opts : KernelOptions) (limits : Limits) :
    Option (Except Stop Unit × ParetoFront Assignment) :=
  (alg.new (P := RefEnc 1) (C := RefEnc 0) Example.inst defaultBlockingClause opts).map fun s =>
    let r := alg.solve 50 limits (refEnv true) s.attachLogger
    (r.1, r.2.front)

/-- A run that returned `Done` with these costs. -/
def Example.isDone (costs : List (List Int)) : Option (Except Stop Unit × ParetoFront Assignment) → Bool
  | some (.ok (), front) => front.map NonDomPoint.costs == costs
  | _ => false

example : Example.isDone [[3, 1], [0, 6]] (Example.run .pMinimal {} ⟨some 5, none, some 7, some 100⟩) := by decide +kernel
example : Example.isDone [[0, 6], [3, 1]] (Example.run .lowerBounding {} ⟨some 5, none, some 7, some 100⟩) := by decide +kernel
example : Example.isDone [[0, 6], [3, 1]] (Example.run .biOptSat {} ⟨some 5, none, some 7, some 100⟩) := by decide +kernel
example : Example.isDone [[3, 1], [0, 6]] (Example.run .pMinimal { enumeration := .solutions none } Limits.none) := by
  decide +kernel
example : Example.isDone [[0, 6], [3, 1]] (Example.run .lowerBounding { enumeration := .pmcss (some 2) } Limits.none) := by
  decide +kernel

/-! ## C04, C05 -/

/-- C04: however `solve` on a fresh solver ends, each point in the front is non-dominated and no point occurs twice. -/
theorem front_sound (alg : Alg) (hs : Setting inst bcg opts env) (hl : LimitsFine env limits)
    (h0 : Started alg inst bcg opts s) (fuel : Nat) : SoundFront inst (alg.solve fuel limits env s).2.front := by
  obtain ⟨cs, h, -⟩ := (run_ok alg hs hl h0 fuel).front
  exact h.soundFront hs.unit

/-- C05: however `solve` on a fresh solver ends, the listed solutions are feasible and have the costs of their point, and
each point has one. -/
theorem solutions_attain (alg : Alg) (hs : Setting inst bcg opts env) (hl : LimitsFine env limits)
    (h0 : Started alg inst bcg opts s) (fuel : Nat) : SolutionsOK inst (alg.solve fuel limits env s).2.front := by
  obtain ⟨cs, h, -⟩ := (run_ok alg hs hl h0 fuel).front
  exact h.solutionsOK

/-- A run that was cut off after one of two points by a limit: the theorems say something about it. -/
def Example.isCut (t : Termination) (costs : List (List Int)) : Option (Except Stop Unit × ParetoFront Assignment) → Bool
  | some (.error (.terminated t'), front) => t' == t && front.map NonDomPoint.costs == costs
  | _ => false

example : Example.isCut .ppLimit [[3, 1]] (Example.run .pMinimal {} ⟨some 1, none, none, none⟩) := by decide +kernel
example : Example.isCut .oracleCallsLimit [[0, 6]] (Example.run .biOptSat {} ⟨none, none, none, some 5⟩) := by decide +kernel

/-! ## C06, C07 -/

/-- C06: there is a number of loop iterations, depending on the instance only, after which every algorithm has returned,
for every correct oracle, all options and all limits. -/
theorem solve_terminates (inst : Instance) : ∃ N, ∀ (alg : Alg) (bcg : Assignment → Clause) (opts : KernelOptions)
    (env : Env) (limits : Limits) (s : Slv P C) (fuel : Nat), Setting inst bcg opts env → LimitsFine env limits →
    Started alg inst bcg opts s → N < fuel → (alg.solve fuel limits env s).1 ≠ .error .fuel := by
  refine ⟨iterBound inst, fun alg bcg opts env limits s fuel hs hl h0 hN h => ?_⟩
  have := (run_ok alg hs hl h0 fuel).fuel h
  omega

/-- C07: no panic, and no error unless the logger fails. -/
theorem solve_no_panic (alg : Alg) (hs : Setting inst bcg opts env) (hl : LimitsFine env limits)
    (h0 : Started alg inst bcg opts s) (fuel : Nat) :
    (alg.solve fuel limits env s).1 ≠ .error .panic ∧
      ((∀ t, env.logOk t = true) → (alg.solve fuel limits env s).1 ≠ .error .error) := by
  have h := run_ok alg hs hl h0 fuel
  refine ⟨h.panic, fun hlog he => ?_⟩
  obtain ⟨t, ht⟩ := h.error he
  rw [hlog t] at ht
  simp at ht

/-- Building a solver does not panic for well-formed instances. -/
theorem new_no_panic (alg : Alg) (hwf : WellFormed inst) (h2 : alg = .biOptSat → inst.objs.length = 2) :
    ∃ s : Slv P C, Started alg inst bcg opts s := by
  have hv : inst.vm.maxVar = some (inst.vm.nextVar - 1) := by
    unfold VarManager.maxVar; rw [if_neg (by have := hwf.enc; omega)]
  have h : ∃ s : Slv P C, alg.new inst bcg opts = some s := by
    cases alg with
    | pMinimal => unfold Alg.new Slv.new Kern.new; simp only [hv]; exact ⟨_, rfl⟩
    | lowerBounding => unfold Alg.new Slv.new Kern.new; simp only [hv]; exact ⟨_, rfl⟩
    | biOptSat =>
      unfold Alg.new Kern.new
      simp only [hv, Option.bind_some]
      unfold Slv.initBos
      rw [if_pos (h2 rfl)]
      exact ⟨_, rfl⟩
  obtain ⟨s, hs⟩ := h
  exact ⟨s, s, hs, .inl rfl⟩

/-! ## C08, C09, C10 -/

/-- C08: with enumeration of all solutions and the default blocking clause, every Pareto-optimal assignment is listed at
its point, and no point lists a solution twice. -/
theorem enumeration_complete (alg : Alg) (hs : Setting inst defaultBlockingClause opts env) (hl : LimitsFine env limits)
    (h0 : Started alg inst defaultBlockingClause opts s) (fuel : Nat) (hen : opts.enumeration = .solutions none)
    (hdone : (alg.solve fuel limits env s).1 = .ok ()) :
    (∀ t, (problem inst).ParetoOptimal t → ∃ p ∈ (alg.solve fuel limits env s).2.front,
      p.costs = (problem inst).costs t ∧ ∃ x ∈ p.sols, Shows inst x t) ∧
    ∀ p ∈ (alg.solve fuel limits env s).2.front, p.sols.Nodup := by
  obtain ⟨cs, hf, hd⟩ := (run_ok alg hs hl h0 fuel).front
  obtain ⟨hfull, hcov⟩ := hd hdone
  refine ⟨fun t ht => ?_, fun p hp => ?_⟩
  · have ht' := (paretoOptimal_iff (opts := opts) (bcg := defaultBlockingClause) hs.unit t).1 ht
    obtain ⟨p, hp, hpc, hfc⟩ := forall₂_mem_right₂ hf.points hfull (hcov t ht')
    obtain ⟨t1, g1, g2, g3⟩ := hpc.costs
    refine ⟨p, hp, ?_, ?_⟩
    · rw [g3, ← costs_eq, costs_eq_iff (opts := opts) (bcg := defaultBlockingClause) hs.unit, g2]
    · have hc : Complete (inst.pb opts defaultBlockingClause) (inst.pb opts defaultBlockingClause).blk p
          ((inst.pb opts defaultBlockingClause).costs t) := by
        have := hfc
        unfold EnumFull at this
        have hen' : (inst.pb opts defaultBlockingClause).en = .solutions none := hen
        rw [hen'] at this
        exact this
      obtain ⟨x, hx, cl, hcl, hev⟩ := hc t ht'.1 rfl
      refine ⟨x, hx, ?_⟩
      obtain ⟨t2, -, -, rfl⟩ := hpc.sols x hx
      have : cl = defaultBlockingClause (Assignment.ofModel t2 (inst.vm.maxOrigVar + 1)) := by
        simp only [Instance.pb, hen, Option.some.injEq] at hcl
        exact hcl.symm
      rw [this, defaultBlocking_eval] at hev
      rw [shows_iff]
      exact ofModel_congr hev
  · obtain ⟨c, -, hc⟩ := hf.mem hp
    exact hc.nodup

example : Example.isDone [[3, 1], [0, 6]] (Example.run .pMinimal { enumeration := .solutions none } Limits.none) ∧
    OrigDetermines Example.inst := ⟨by decide +kernel, Example.determines⟩

/-- C09: however `solve` ends, no point lists more solutions than asked for, and exactly one without enumeration. -/
theorem enumeration_limit (alg : Alg) (hs : Setting inst bcg opts env) (hl : LimitsFine env limits)
    (h0 : Started alg inst bcg opts s) (fuel : Nat) : ∀ p ∈ (alg.solve fuel limits env s).2.front,
    (opts.enumeration = .noEnum → p.sols.length = 1) ∧
    ∀ k, 1 ≤ k → opts.enumeration = .solutions (some k) ∨ opts.enumeration = .pmcss (some k) → p.sols.length ≤ k := by
  obtain ⟨cs, hf, -⟩ := (run_ok alg hs hl h0 fuel).front
  intro p hp
  obtain ⟨c, -, hc⟩ := hf.mem hp
  have h : CountOK opts.enumeration p.sols.length := hc.count
  unfold CountOK at h
  refine ⟨fun hen => by rw [hen] at h; exact h, ?_⟩
  rintro k hk (hen | hen) <;> rw [hen] at h <;> simp only at h <;> omega

theorem iter_pos (h : PosWeights inst) {o : Objective} (ho : o ∈ inst.objs) : ∀ p ∈ o.iter, 0 < p.2 := by
  cases o with
  | weighted off lits i lb => exact h off lits i lb ho
  | unweighted off w lits i lb =>
    intro p hp
    simp only [Objective.iter, List.mem_map] at hp
    obtain ⟨l, -, rfl⟩ := hp
    exact Nat.one_pos
  | constant off i lb => simp [Objective.iter]

theorem linear_eq_of_sub {l : List (Lit × Nat)} {s t : Asg} (h : ∀ p ∈ l, p.1.eval s = true → p.1.eval t = true)
    (hp : ∀ p ∈ l, 0 < p.2) (he : linear s l = linear t l) : ∀ p ∈ l, p.1.eval s = p.1.eval t := by
  induction l with
  | nil => simp
  | cons q l ih =>
    obtain ⟨lit, w⟩ := q
    have h1 := linear_le_of (l := l) fun p hp => h p (by simp [hp])
    have h2 := h (lit, w) (by simp)
    have h3 := hp (lit, w) (by simp)
    simp only [linear, ← Lit.eval_iff] at he h2 h3
    have h4 : lit.eval s = lit.eval t := by
      cases hs : lit.eval s <;> cases ht : lit.eval t <;> simp_all
    have h5 : linear s l = linear t l := by rw [h4] at he; omega
    intro p hp'
    rcases List.mem_cons.1 hp' with rfl | hp'
    · exact h4
    · exact ih (fun p hp => h p (by simp [hp])) (fun p h => hp p (by simp [h])) h5 p hp'

/-- C10: with enumeration of all Pareto-MCSes and objectives over original variables, for every Pareto-optimal
assignment a solution with the same objective literals is listed at its point, and the solutions of a point differ in
their objective literals. -/
theorem pmcs_enumeration_partial (alg : Alg) (hs : Setting inst bcg opts env) (hl : LimitsFine env limits)
    (h0 : Started alg inst bcg opts s) (fuel : Nat) (hen : opts.enumeration = .pmcss none) (hw : PosWeights inst)
    (horig : ObjsOrig inst) (hdone : (alg.solve fuel limits env s).1 = .ok ()) :
    ExactFront inst (alg.solve fuel limits env s).2.front ∧
    (∀ t, (problem inst).ParetoOptimal t → ∃ p ∈ (alg.solve fuel limits env s).2.front,
      p.costs = (problem inst).costs t ∧ ∃ x ∈ p.sols, ∀ t', Shows inst x t' → SameObjLits inst t' t) ∧
    ∀ p ∈ (alg.solve fuel limits env s).2.front,
      p.sols.Pairwise fun x y => ∀ t t', Shows inst x t → Shows inst y t' → ¬ SameObjLits inst t t' := by
  have hrun := run_ok alg hs hl h0 fuel
  obtain ⟨cs, hf, hd⟩ := hrun.front
  obtain ⟨hfull, hcov⟩ := hd hdone
  have hblk : ∀ x, (inst.pb opts bcg).blk x = some (mcsLits inst.objs x).eraseDups := by
    intro x
    simp only [Instance.pb, hen]
    exact blockParetoMcs_some _ _
  -- objective literals are determined by the original part
  have hshow : ∀ {t t' : Asg}, Assignment.ofModel t (inst.vm.maxOrigVar + 1) = Assignment.ofModel t' (inst.vm.maxOrigVar + 1) →
      ∀ o ∈ inst.objs, ∀ l ∈ objLits o, l.eval t = l.eval t' := by
    intro t t' h o ho l hl
    have h1 : l.var < inst.vm.maxOrigVar + 1 := Nat.lt_succ_of_le (horig o ho l hl)
    have h2 := Assignment.litValue_ofModel t _ l h1
    rw [h, Assignment.litValue_ofModel t' _ l h1] at h2
    exact (ofBool_inj h2).symm
  refine ⟨by rw [hdone] at hrun; exact hrun.exactFront hs.unit, fun t ht => ?_, fun p hp => ?_⟩
  · have ht' := (paretoOptimal_iff (opts := opts) (bcg := bcg) hs.unit t).1 ht
    obtain ⟨p, hp, hpc, hfc⟩ := forall₂_mem_right₂ hf.points hfull (hcov t ht')
    obtain ⟨t1, g1, g2, g3⟩ := hpc.costs
    refine ⟨p, hp, ?_, ?_⟩
    · rw [g3, ← costs_eq, costs_eq_iff (opts := opts) (bcg := bcg) hs.unit, g2]
    · have hc : Complete (inst.pb opts bcg) (inst.pb opts bcg).blk p ((inst.pb opts bcg).costs t) := by
        have := hfc
        unfold EnumFull at this
        have hen' : (inst.pb opts bcg).en = .pmcss none := hen
        rw [hen'] at this
        exact this
      obtain ⟨x, hx, cl, hcl, hev⟩ := hc t ht'.1 rfl
      refine ⟨x, hx, ?_⟩
      obtain ⟨t2, -, h3, rfl⟩ := hpc.sols x hx
      rw [hblk, Option.some.injEq] at hcl
      rw [← hcl, clauseEval_eraseDups] at hev
      have hsub := (mcs_eval horig t2 t).1 hev
      intro t' hsh o ho l hlo
      rw [shows_iff] at hsh
      have hsh' : Assignment.ofModel t2 (inst.vm.maxOrigVar + 1) = Assignment.ofModel t' (inst.vm.maxOrigVar + 1) := hsh
      obtain ⟨q, hq, rfl⟩ := (mem_objLits o l).1 hlo
      have hlin : linear t2 o.iter = linear t o.iter := by
        have h4 : inst.objs.map (fun o => icost o t2) = inst.objs.map (fun o => icost o t) := h3
        exact List.map_inj_left.1 h4 o ho
      have := linear_eq_of_sub (fun p hp h => hsub o ho p.1 ((mem_objLits o p.1).2 ⟨p, hp, rfl⟩) h) (iter_pos hw ho) hlin q hq
      rw [← Lit.eval_iff, ← Lit.eval_iff, ← this, hshow hsh' o ho q.1 hlo]
  · obtain ⟨c, -, hc⟩ := hf.mem hp
    refine List.Pairwise.imp_of_mem ?_ hc.unblocked
    intro x y hx hy hxy t t' hst hst' hsame
    rw [shows_iff] at hst hst'
    obtain ⟨t2, h1, h2⟩ := hxy _ (hblk x)
    rw [clauseEval_eraseDups, hst, ← Bool.not_eq_false, mcs_eval horig] at h2
    refine h2 fun o ho l hlo hl => ?_
    have hy2 : Assignment.ofModel t' (inst.vm.maxOrigVar + 1) = Assignment.ofModel t2 (inst.vm.maxOrigVar + 1) := by
      rw [← hst']; exact h1
    rw [← hshow hy2 o ho l hlo, Lit.eval_iff, ← hsame o ho l hlo, ← Lit.eval_iff]
    exact hl

/-- The hypotheses of `pmcs_enumeration_partial` are met. -/
example : Example.isDone [[0, 6], [3, 1]] (Example.run .lowerBounding { enumeration := .pmcss none } Limits.none) ∧
    PosWeights Example.inst ∧ ObjsOrig Example.inst := by
  refine ⟨by decide +kernel, ?_, Example.objsOrig⟩
  intro off lits i lb h
  simp only [Example.inst, List.mem_cons, Objective.weighted.injEq, reduceCtorEq, List.not_mem_nil, or_self, or_false] at h
  obtain ⟨-, rfl, -⟩ := h
  decide

/-- Instance with a relaxation variable that is not an original one. -/
def Example.mcsInst : Instance where
  clauses := [[Lit.pos 1, Lit.pos 0]]
  objs := [.unweighted 0 1 [Lit.pos 1] 0 0, .unweighted 0 1 [Lit.pos 0] 1 0]
  vm := ⟨2, 0, 1⟩

/-- C10 does not hold without the assumption on the objectives: Pareto-MCS enumeration returns `Done` with an
incomplete front, because the literals of relaxation variables are not seen when the blocking clause is built. -/
theorem pmcs_enumeration_counterexample : ∃ (inst : Instance) (s : Example.Solver),
    WellFormed inst ∧ FitsIsize inst ∧ PosUnit inst ∧ PosWeights inst ∧ CorrectOracle (refEnv true) ∧
    Started .pMinimal inst defaultBlockingClause { enumeration := .pmcss none } s ∧
    (Alg.pMinimal.solve 50 Limits.none (refEnv true) s).1 = .ok () ∧
    ¬ ExactFront inst (Alg.pMinimal.solve 50 Limits.none (refEnv true) s).2.front := by
  have hwf : WellFormed Example.mcsInst := ⟨by decide, by decide, by decide, by decide⟩
  have hfit : FitsIsize Example.mcsInst := Example.fitsIsize_of_sum (by decide)
  have hunit : PosUnit Example.mcsInst := by
    intro off w lits i lb h
    simp [Example.mcsInst] at h
    omega
  -- the run with enumeration finds one point
  have h1 : (Alg.new (P := RefEnc 1) (C := RefEnc 0) .pMinimal Example.mcsInst defaultBlockingClause
      { enumeration := .pmcss none }).any (fun s =>
        Example.isDone [[1, 0]] (some ((Alg.pMinimal.solve 50 Limits.none (refEnv true) s).1,
          (Alg.pMinimal.solve 50 Limits.none (refEnv true) s).2.front))) = true := by decide +kernel
  -- the run without enumeration finds two
  have h2 : (Alg.new (P := RefEnc 1) (C := RefEnc 0) .pMinimal Example.mcsInst defaultBlockingClause {}).any (fun s =>
        Example.isDone [[1, 0], [0, 1]] (some ((Alg.pMinimal.solve 50 Limits.none (refEnv true) s).1,
          (Alg.pMinimal.solve 50 Limits.none (refEnv true) s).2.front))) = true := by decide +kernel
  have key : ∀ {r : Except Stop Unit} {f : ParetoFront Assignment} {c}, Example.isDone c (some (r, f)) = true →
      r = .ok () ∧ f.map NonDomPoint.costs = c := by
    intro r f c h
    cases r with
    | error e => simp [Example.isDone] at h
    | ok u => exact ⟨rfl, by simpa [Example.isDone] using h⟩
  rw [Option.any_eq_true] at h1 h2
  obtain ⟨s1, hs1, h1⟩ := h1
  obtain ⟨s2, hs2, h2⟩ := h2
  obtain ⟨h1, h1'⟩ := key h1
  obtain ⟨h2, h2'⟩ := key h2
  refine ⟨Example.mcsInst, s1, hwf, hfit, hunit, ?_, refEnv_correct true, ⟨s1, hs1, .inl rfl⟩, h1, fun hex => ?_⟩
  · intro off lits i lb h
    simp [Example.mcsInst] at h
  · have h3 := pminimal_exact_front (opts := {}) ⟨hwf, hfit, hunit, .noEnum _, refEnv_correct true, fun h => by simp [refEnv] at h⟩
      (fun _ => ⟨by simp [Limits.none], by simp [Limits.none], by simp [Limits.none], by simp [Limits.none]⟩)
      ⟨s2, hs2, .inl rfl⟩ 50 h2
    have h4 := (hex.exact [0, 1]).2 ((h3.exact [0, 1]).1 (by rw [h2']; simp))
    rw [h1'] at h4
    simp at h4

/-- C03: the clauses by which BiOptSat goes on to the next point say that the assumptions for the first objective imply the
bound on the second one. -/
theorem cubeImplCube_holds (m : Asg) (base ls : List Lit) : cnfEval m (cubeImplCube base ls) = true ↔
    ((∀ l ∈ base, l.eval m = true) → ∀ l ∈ ls, l.eval m = true) := by
  have hneg : ∀ l : Lit, l.not.eval m = true ↔ ¬ l.eval m = true := fun l => by
    cases l with
    | mk v n => cases n <;> simp [Lit.not, Lit.eval]
  simp only [cnfEval, cubeImplCube, List.all_map, List.all_eq_true, Function.comp_apply, clauseEval, List.any_append,
    List.any_map, List.any_cons, List.any_nil, Bool.or_false, Bool.or_eq_true, List.any_eq_true, hneg]
  constructor
  · intro h hb l hl
    rcases h l hl with ⟨x, hx, hn⟩ | h
    · exact absurd (hb x hx) hn
    · exact h
  · intro h l hl
    by_cases hb : ∀ x ∈ base, x.eval m = true
    · exact .inr (h hb l hl)
    · simp only [not_forall] at hb
      obtain ⟨x, hx, hn⟩ := hb
      exact .inl ⟨x, hx, hn⟩

example : cnfEval (fun v => v == 0) (cubeImplCube [Lit.pos 0] [Lit.pos 1]) = false ∧
    cnfEval (fun v => v == 1) (cubeImplCube [Lit.pos 0] [Lit.pos 1]) = true := by decide

/-! ## C16 -/

/-- C16: any two of the algorithms find the same costs, whatever oracles, encodings and options they use. -/
theorem algorithms_agree {P' C' : Type} [UbEnc P'] [UbEnc C'] [LawfulUbEnc P'] [LawfulUbEnc C'] (alg alg' : Alg)
    {env' : Env} {s' : Slv P' C'} {opts' : KernelOptions} {bcg' : Assignment → Clause} {limits' : Limits}
    (hs : Setting inst bcg opts env) (hs' : Setting inst bcg' opts' env') (hl : LimitsFine env limits)
    (hl' : LimitsFine env' limits') (h0 : Started alg inst bcg opts s) (h0' : Started alg' inst bcg' opts' s')
    (fuel fuel' : Nat) (hdone : (alg.solve fuel limits env s).1 = .ok ())
    (hdone' : (alg'.solve fuel' limits' env' s').1 = .ok ()) :
    ((alg.solve fuel limits env s).2.front.map NonDomPoint.costs).Perm
      ((alg'.solve fuel' limits' env' s').2.front.map NonDomPoint.costs) := by
  have h1 := run_ok alg hs hl h0 fuel
  have h2 := run_ok alg' hs' hl' h0' fuel'
  rw [hdone] at h1
  rw [hdone'] at h2
  have e1 := h1.exactFront hs.unit
  have e2 := h2.exactFront hs'.unit
  exact (List.perm_ext_iff_of_nodup e1.once e2.once).2 fun v => (e1.exact v).trans (e2.exact v).symm

end Scuttle
