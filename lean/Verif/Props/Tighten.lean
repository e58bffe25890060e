import Verif.Props.Linsu
import Verif.Props.Io

/-!
# C55: solution tightening
-/

set_option linter.unusedSectionVars false

namespace Scuttle

open Spec

namespace Spec

/-- What a user expects of the costs `c` and the solution `sol` when the oracle has found `sol0`: both are feasible, and
in each objective the cost is between the values of the two. -/
structure Tighter (inst : Instance) (sol0 sol : Assignment) (c : List Nat) (u v : Asg) (n : Nat) : Prop where
  restr0 : Restricts sol0 u n
  restr : Restricts sol v n
  vars : inst.vm.maxEncVar < n
  feas0 : (problem inst).Feasible u
  feas : (problem inst).Feasible v
  len : c.length = inst.objs.length
  above : ∀ (i x : Nat) (o : Objective), inst.objs[i]? = some o → c[i]? = some x → objValue o v ≤ external o x
  below : ∀ (i x : Nat) (o : Objective), inst.objs[i]? = some o → c[i]? = some x → external o x ≤ objValue o u
  last : ∀ (i x : Nat) (o : Objective), i + 1 = inst.objs.length → inst.objs[i]? = some o → c[i]? = some x →
    objValue o v = external o x

end Spec

variable {P C : Type} [UbEnc P] [UbEnc C] [LawfulUbEnc P] [LawfulUbEnc C]
variable {env : Env} {s s1 s2 : Slv P C} {inst : Instance} {opts : KernelOptions} {bcg : Assignment → Clause}

/-- The state after a call of the oracle that found a solution. -/
theorem searched_sat {as : List Lit} (hs : Setting inst bcg opts env) (h : Searched env inst bcg opts s)
    (hsat : solveAssumps as env s = (.ok .sat, s1)) : ∃ m, s1.k.ostate = .sat m ∧ IoInv env inst.objs.length s1.io ∧
      cnfEval m s1.k.db = true ∧ DBInv (inst.pb opts bcg) (fun _ => True) s1 := by
  have hi := h.inv hs
  have hw := wp_solveAssumpsL (env := env) (s := s) (n := inst.objs.length) (E := fun _ _ => True)
    (Q := fun r s' => r = .sat → ∃ m, s'.k.ostate = .sat m ∧ IoInv env inst.objs.length s'.io ∧
      cnfEval m s'.k.db = true ∧ DBInv (inst.pb opts bcg) (fun _ => True) s') (CorrectOracle.ok hs.oracle) as hi.io
    (fun m s' h1 h2 h3 h4 _ _ => ⟨m, h2, h3, by rw [h1.db]; exact h4, hi.inv.same h1⟩)
    (fun _ _ _ _ _ _ _ _ _ _ h => by cases h) (fun _ _ _ _ h => by cases h) (fun _ _ _ _ => trivial)
  unfold wp at hw
  rw [hsat] at hw
  exact hw rfl

/-- What the costs and the solution are. -/
theorem searched_costs {as : List Lit} (hs : Setting inst bcg opts env) (h : Searched env inst bcg opts s)
    (hsat : solveAssumps as env s = (.ok .sat, s1)) (tightening : Bool) :
    wp env (getSolutionAndCosts tightening) (fun r _ => ∃ sol0 u v n, oracleSolution env s1 = (.ok sol0, s1) ∧
      Tighter inst sol0 r.2 r.1 u v n) (fun e _ => e ≠ .panic ∧ (e = .error → LogFail env)) s1 := by
  obtain ⟨m, hm, hio, hdb, hi⟩ := searched_sat hs h hsat
  have wf := pb_wf (opts := opts) (bcg := bcg) hs.wf
  have hn0 : (inst.pb opts bcg).n0 = inst.vm.maxEncVar + 1 := rfl
  have hnext := hi.next
  have hsol : oracleSolution env s1 = (.ok (Assignment.ofModel m s1.k.vm.nextVar), s1) := by
    have hw := wp_oracleSolution (env := env) (E := fun _ _ => False) (Q := fun r s' =>
      r = Assignment.ofModel m s1.k.vm.nextVar ∧ s' = s1) hm (by omega) ⟨rfl, rfl⟩
    unfold wp at hw
    revert hw
    rcases oracleSolution env s1 with ⟨r | r, s'⟩
    · exact fun h => h.elim
    · rintro ⟨rfl, rfl⟩; rfl
  refine wp_getSolutionAndCosts wf (CorrectOracle.ok hs.oracle) hs.tok rfl hio hi hm hdb tightening ?_ ?_
  · intro m' c s' _ _ hdb' hle hge hlen hlast
    have hfeas : ∀ t, cnfEval t s1.k.db = true → (problem inst).Feasible t := fun t ht =>
      (feasible_iff (opts := opts) (bcg := bcg) t).2 (hi.sound t ht).1
    have hget : ∀ {i : Nat} {o : Objective} (t : Asg), inst.objs[i]? = some o →
        ((inst.pb opts bcg).costs t)[i]? = some (icost o t) := by
      intro i o t ho
      simp only [Pb.costs, List.getElem?_map, Option.map_eq_some_iff]
      exact ⟨o, ho, rfl⟩
    refine ⟨_, m, m', s1.k.vm.nextVar, hsol, (restricts_iff _ _ _).2 rfl, (restricts_iff _ _ _).2 rfl, by omega,
      hfeas m hdb, hfeas m' hdb', hlen, ?_, ?_, ?_⟩
    · intro i x o ho hx
      rw [(external_le_iff hs.unit (List.mem_of_getElem? ho) _ _).1]
      exact (vle_iff_getElem (by simp [hlen])).1 hle i _ _ (hget m' ho) hx
    · intro i x o ho hx
      rw [(external_le_iff hs.unit (List.mem_of_getElem? ho) _ _).2]
      exact (vle_iff_getElem (by simp [hlen])).1 hge i _ _ hx (hget m ho)
    · intro i x o hi ho hx
      have h1 := hlast i x o hi hx ho
      have h2 := external_le_iff hs.unit (List.mem_of_getElem? ho) m' x
      exact Int.le_antisymm (h2.1.2 (by omega)) (h2.2.2 (by omega))
  · intro e s' _ h1
    have h2 := h1.1.2
    constructor
    · rintro rfl
      exact h2
    · rintro rfl
      exact h2

/-- C55: after a call of the oracle that found a solution, with or without tightening, the costs and the solution that the
algorithms go on with belong to a feasible assignment that is nowhere worse than the given costs, which in turn are nowhere
worse than the solution found by the oracle; the cost of the last objective is exact. -/
theorem tightened_solution {as : List Lit} (hs : Setting inst bcg opts env) (h : Searched env inst bcg opts s)
    (hsat : solveAssumps as env s = (.ok .sat, s1)) {tightening : Bool} {c : List Nat} {sol : Assignment}
    (hr : getSolutionAndCosts tightening env s1 = (.ok (c, sol), s2)) :
    ∃ sol0 u v n, oracleSolution env s1 = (.ok sol0, s1) ∧ Tighter inst sol0 sol c u v n := by
  have hw := searched_costs hs h hsat tightening
  unfold wp at hw
  rw [hr] at hw
  exact hw

/-- C55: tightening does not panic, in particular the debug assertion on the cost holds, and fails only if the logger
does. -/
theorem tightening_ends {as : List Lit} (hs : Setting inst bcg opts env) (h : Searched env inst bcg opts s)
    (hsat : solveAssumps as env s = (.ok .sat, s1)) {tightening : Bool} {e : Stop}
    (hr : getSolutionAndCosts tightening env s1 = (.error e, s2)) : e ≠ .panic ∧ (e = .error → LogFail env) := by
  have hw := searched_costs hs h hsat tightening
  unfold wp at hw
  rw [hr] at hw
  exact hw

/-- C55 for one objective, as BiOptSat uses it: the cost is the value of the solution, and the logger is told the values
before and after tightening. -/
theorem tightened_cost {as : List Lit} (hs : Setting inst bcg opts env) (h : Searched env inst bcg opts s)
    (hsat : solveAssumps as env s = (.ok .sat, s1)) {sol0 : Assignment} (h0 : oracleSolution env s1 = (.ok sol0, s1))
    {tightening : Bool} {i c : Nat} {o : Objective} (ho : inst.objs[i]? = some o) {sol : Assignment}
    (hr : getCostTight i sol0 tightening env s1 = (.ok (c, sol), s2)) :
    ∃ u v n, Restricts sol0 u n ∧ Restricts sol v n ∧ inst.vm.maxEncVar < n ∧ (problem inst).Feasible u ∧
      (problem inst).Feasible v ∧ objValue o v = external o c ∧ (∀ o' ∈ inst.objs, objValue o' v ≤ objValue o' u) ∧
      (env.tighten = true → tightening = true → ∃ before, objValue o u = external o before ∧
        s2.io.logger = s1.io.logger.map (· ++ [.heurImprovement i before c])) := by
  obtain ⟨m, hm, hio, hdb, hi⟩ := searched_sat hs h hsat
  have wf := pb_wf (opts := opts) (bcg := bcg) hs.wf
  have hn0 : (inst.pb opts bcg).n0 = inst.vm.maxEncVar + 1 := rfl
  have hnext := hi.next
  have hw := wp_oracleSolution (env := env) (E := fun _ _ => False) (Q := fun r s' =>
    r = Assignment.ofModel m s1.k.vm.nextVar ∧ s' = s1) hm (by omega) ⟨rfl, rfl⟩
  unfold wp at hw
  rw [h0] at hw
  obtain ⟨rfl, -⟩ := hw
  have hw := wp_getCostTightL (env := env) (E := fun _ _ => True) (Q := fun r s' => ∃ m', r = (icost o m',
      Assignment.ofModel m' s1.k.vm.nextVar) ∧ cnfEval m' s1.k.db = true ∧ (∀ o ∈ inst.objs, icost o m' ≤ icost o m) ∧
      ((env.tighten && tightening) = true →
        s'.io.logger = s1.io.logger.map (· ++ [.heurImprovement i (icost o m) (icost o m')])))
    wf (CorrectOracle.ok hs.oracle) hs.tok hio hi ho (n := s1.k.vm.nextVar) (by omega) hm hdb tightening
    (fun m' s' h1 _ _ h4 h5 _ h7 => ⟨m', rfl, by rw [h1.db] at h4; exact h4, h5, h7⟩) (fun _ _ _ _ => trivial)
  unfold wp at hw
  rw [hr] at hw
  obtain ⟨m', h1, h2, h3, hlog⟩ := hw
  simp only [Prod.mk.injEq] at h1
  obtain ⟨rfl, rfl⟩ := h1
  have hfeas : ∀ t, cnfEval t s1.k.db = true → (problem inst).Feasible t := fun t ht =>
    (feasible_iff (opts := opts) (bcg := bcg) t).2 (hi.sound t ht).1
  refine ⟨m, m', s1.k.vm.nextVar, (restricts_iff _ _ _).2 rfl, (restricts_iff _ _ _).2 rfl, by omega,
    hfeas m hdb, hfeas m' h2, ?_, fun o' ho' => ?_, fun ht1 ht2 => ⟨icost o m, ?_, hlog (by rw [ht1, ht2]; rfl)⟩⟩
  rotate_right
  · have h2 := external_le_iff hs.unit (List.mem_of_getElem? ho) m (icost o m)
    exact Int.le_antisymm (h2.1.2 (Nat.le_refl _)) (h2.2.2 (Nat.le_refl _))
  · have h2 := external_le_iff hs.unit (List.mem_of_getElem? ho) m' (icost o m')
    exact Int.le_antisymm (h2.1.2 (Nat.le_refl _)) (h2.2.2 (Nat.le_refl _))
  · rw [objValue_eq, objValue_eq]
    unfold extVal
    have := Nat.mul_le_mul_right o'.unitWeight (h3 o' ho')
    omega

/-! ## Examples -/

/-- The theorems on runs cover builds with tightening: the example meets the hypotheses also for these. -/
theorem Example.setting_tight (opts : KernelOptions) :
    Setting Example.inst defaultBlockingClause opts (refEnv true true) where
  wf := Example.wellFormed
  fits := Example.fits
  unit := Example.posUnit
  enum := by
    cases opts.enumeration with
    | noEnum => exact .noEnum _
    | solutions l => exact .solutions _ _ (default_goodBlocking Example.wellFormed Example.determines)
    | pmcss l => exact .pmcss _ _ Example.objsOrig
  oracle := refEnv_correct true true
  tight _ := by
    refine ⟨by unfold NoDupLits; decide, fun off lits i lb h => ?_⟩
    simp only [Example.inst, List.mem_cons, Objective.weighted.injEq, List.not_mem_nil, or_false, reduceCtorEq] at h
    rw [h.2.1]
    decide

/-- What tightening did, in the order of the log: index of the objective, cost before and after. -/
def Example.improvements (l : List LogEvent) : List (Nat × Nat × Nat) := l.filterMap fun
  | .heurImprovement i a b => some (i, a, b)
  | _ => none

/-- An instance in which the first literal of the second objective can be removed at once, and the literal of the first
objective only after that. -/
def Example.stale : Instance where
  clauses := [[Lit.pos 0, Lit.pos 1]]
  objs := [.weighted 0 [(Lit.pos 0, 1)] 0 0, .weighted 0 [((Lit.pos 1).not, 1), (Lit.pos 0, 1)] 1 0]
  vm := ⟨2, 1, 1⟩

theorem Example.stale_setting (opts : KernelOptions) (hen : opts.enumeration = .noEnum) :
    Setting Example.stale defaultBlockingClause opts (refEnv true true) where
  wf := ⟨by decide, by decide, by decide, by decide⟩
  fits := Example.fitsIsize_of_sum (by decide)
  unit := by
    intro off w lits i lb h
    simp [Example.stale] at h
  enum := by rw [hen]; exact .noEnum _
  oracle := refEnv_correct true true
  tight _ := by
    refine ⟨by unfold NoDupLits; decide, fun off lits i lb h => ?_⟩
    simp only [Example.stale, List.mem_cons, Objective.weighted.injEq, List.not_mem_nil, or_false] at h
    rcases h with h | h <;> rw [h.2.1] <;> decide

/-- Tightening finds better solutions in the run of P-minimal on this instance. -/
example : (Example.final Example.stale .pMinimal {} Limits.none (refEnv true true)).any fun r =>
    Example.isDone [[0, 0]] (some (r.1, r.2.front)) &&
      r.2.io.logger.map Example.improvements == some [(0, 1, 1), (1, 2, 0)] := by decide +kernel

/-- C55: the costs of all objectives but the last may be out of date, since a later objective can change the solution. A
completed run reports a candidate whose costs are those of no feasible assignment. -/
theorem tightened_candidate_counterexample : ∃ inst : Instance,
    Setting inst defaultBlockingClause {} (refEnv true true) ∧
    ((Example.final inst .pMinimal {} Limits.none (refEnv true true)).any fun r =>
      Example.isDone [[0, 0]] (some (r.1, r.2.front)) &&
        (r.2.io.logger.any fun l => ((candidates l).map Prod.fst).contains [1, 0])) = true ∧
    ∀ t, (problem inst).Feasible t → (inst.objs.map fun o => objValue o t) ≠ [1, 0] := by
  refine ⟨Example.stale, Example.stale_setting _ rfl, by decide +kernel, fun t ht => ?_⟩
  have h := ht [Lit.pos 0, Lit.pos 1] (by simp [problem, Example.stale])
  simp only [List.mem_cons, List.not_mem_nil, or_false, exists_eq_or_imp, exists_eq_left] at h
  simp only [Example.stale, objValue, linear, List.map_cons, List.map_nil]
  unfold LitTrue Lit.pos Lit.not at *
  simp only [Bool.false_eq_true, if_false] at *
  by_cases h0 : t 0 = true <;> by_cases h1 : t 1 = true <;> simp_all

/-- The same instance with the objectives swapped. -/
def Example.loose : Instance := { Example.stale with
  objs := [.weighted 0 [((Lit.pos 1).not, 1), (Lit.pos 0, 1)] 0 0, .weighted 0 [(Lit.pos 0, 1)] 1 0] }

/-- C55: BiOptSat tightens solutions though the option says never to do so; P-minimal does not. -/
theorem tightening_never_counterexample : ∃ (inst : Instance) (opts : KernelOptions),
    opts.solutionTightening = .never ∧
    ((Example.final inst .biOptSat opts Limits.none (refEnv true true)).any fun r =>
      r.2.io.logger.map Example.improvements == some [(0, 2, 0)]) = true ∧
    ((Example.final inst .pMinimal opts Limits.none (refEnv true true)).any fun r =>
      r.2.io.logger.map Example.improvements == some []) = true :=
  ⟨Example.loose, { solutionTightening := .never }, rfl, by decide +kernel, by decide +kernel⟩

/-- The condition `BaseOK` of C42 is needed: with tightening, a search with a base assumption but no upper bound can
return a solution that violates the assumption. -/
theorem linsu_base_counterexample : ∃ (inst : Instance) (base : List Lit) (s : Example.Solver),
    Setting inst defaultBlockingClause {} (refEnv true true) ∧ Started .biOptSat inst defaultBlockingClause {} s ∧
    OverInstance inst base ∧ ∃ cost sol s', Scuttle.linsu 50 0 0 base none none (refEnv true true) s =
      (.ok (some (cost, sol)), s') ∧ ∃ l ∈ base, sol.litValue l = .ff := by
  have h : (Alg.biOptSat.new (P := RefEnc 1) (C := RefEnc 0) Example.loose defaultBlockingClause {}).any (fun s =>
      match (Scuttle.linsu 50 0 0 [(Lit.pos 1).not] none none (refEnv true true) s).1 with
      | .ok (some r) => r.2.litValue (Lit.pos 1).not == .ff
      | _ => false) = true := by decide +kernel
  rw [Option.any_eq_true] at h
  obtain ⟨s, hs, h⟩ := h
  refine ⟨Example.loose, [(Lit.pos 1).not], s, ?_, ⟨s, hs, .inl rfl⟩, by unfold OverInstance; decide, ?_⟩
  · refine ⟨⟨by decide, by decide, by decide, by decide⟩, Example.fitsIsize_of_sum (by decide), ?_, .noEnum _,
      refEnv_correct true true, fun _ => ⟨by unfold NoDupLits; decide, ?_⟩⟩
    · intro off w lits i lb h
      simp [Example.loose] at h
    · intro off lits i lb h
      simp only [Example.loose, List.mem_cons, Objective.weighted.injEq, List.not_mem_nil, or_false] at h
      rcases h with h | h <;> rw [h.2.1] <;> decide
  · revert h
    rcases Scuttle.linsu 50 0 0 [(Lit.pos 1).not] none none (refEnv true true) s with ⟨e | r, s'⟩
    · simp
    · cases r with
      | none => simp
      | some r =>
        obtain ⟨c, sol⟩ := r
        intro h
        exact ⟨c, sol, s', rfl, (Lit.pos 1).not, by simp, by simpa using h⟩

end Scuttle
