import Verif.Proof.CoreLog
import Verif.Props.LogTrue
import Verif.Props.Io

/-!
# C65: the messages about cores account for the ideal point
-/

set_option linter.unusedSectionVars false

namespace Scuttle

open Spec

variable {P C D : Type} [UbEnc P] [UbEnc C] [TotDb D] [MergeEnc P C D]
variable [LawfulUbEnc P] [LawfulUbEnc C] [LawfulTotDb D] [LawfulMergeEnc P C D]
variable {env : Env} {s : Slv P C} {inst : Instance} {opts : KernelOptions} {bcg : Assignment → Clause}

theorem externalCost_le (o : Objective) {x y : Nat} (h : x ≤ y) : externalCost o x ≤ externalCost o y := by
  cases o with
  | weighted off lits i b => simp only [externalCost]; omega
  | unweighted off w lits i b =>
    simp only [externalCost]
    have := Nat.mul_le_mul_right w h
    omega
  | constant off i b => exact Int.le_refl _

theorem LowI.lower {o : Objective} {x : Nat} (h : LowI (inst.pb opts bcg) o x) : LowerFor inst o x := by
  intro t ht
  rw [objValue_external]
  exact externalCost_le o (h t ((feasible_iff t).1 ht))

theorem MinI.least {o : Objective} {x : Nat} (h : MinI (inst.pb opts bcg) o x) : LeastFor inst o x := by
  obtain ⟨t, h1, h2⟩ := h.2
  exact ⟨h.1.lower, t, (feasible_iff (opts := opts) (bcg := bcg) t).2 h1, by rw [objValue_external, h2]⟩

theorem started_lk {alg : Alg} (h0 : Started alg inst bcg opts s) : LK [] s := by
  intro l h
  rcases started_logger h0 with h' | h' <;> rw [h'] at h <;> cases h
  exact ⟨rfl, by simp⟩

theorem searchedTo_all : searchedTo inst inst.objs.length = searched inst := by
  unfold searchedTo searched
  rw [List.take_length]

theorem searchedTo_take (k : Nat) : ∃ m, searchedTo inst k = (searched inst).take m := by
  have : searchedTo inst k <+: searched inst := (List.take_prefix k inst.objs).filter _
  exact ⟨_, List.prefix_iff_eq_take.1 this⟩

/-- C65: if core boosting of a fresh solver succeeds, then for each objective that core-guided search is run on, what the
messages about its cores raise the bound by in total is its least value over the feasible assignments. -/
theorem cores_account {alg : Alg} {cb : CbOptions} (hs : Setting inst bcg opts env) (nd : NoDupCores env)
    (hn : NoDupLits inst) (h0 : Started alg inst bcg opts s) (fuel : Nat) (hF : ∃ t, (problem inst).Feasible t)
    {b : Bool} (hb : (coreBoost D fuel cb env s).1 = .ok b) {l : List LogEvent}
    (hlog : (coreBoost D fuel cb env s).2.io.logger = some l) :
    List.Forall₂ (LeastFor inst) (searched inst) (ollSums l) ∧ ∀ e ∈ l, CoreFine e := by
  obtain ⟨t, ht⟩ := hF
  have h := lk_coreBoost (D := D) (fuel := fuel) (cb := cb) hs nd hn ⟨t, (feasible_iff t).1 ht⟩
    (fresh_fine hs.wf (started_fresh h0)).binv (started_lk h0)
  unfold wp at h
  cases hr : coreBoost D fuel cb env s with
  | mk r s1 =>
    rw [hr] at h hb hlog
    simp only at hb
    subst hb
    obtain ⟨ys, h1, h2⟩ := h
    obtain ⟨h3, h4⟩ := h1 l hlog
    refine ⟨?_, h4⟩
    unfold ollSums
    rw [h3, ← searchedTo_all]
    exact h2.imp fun _ _ h => h.least

/-- C65: however core boosting ends, what the messages about cores raise the bounds by are lower bounds for the first
objectives that core-guided search is run on: if a run is cut short, the log of it is still true. -/
theorem cores_lower {alg : Alg} {cb : CbOptions} (hs : Setting inst bcg opts env) (nd : NoDupCores env)
    (hn : NoDupLits inst) (h0 : Started alg inst bcg opts s) (fuel : Nat) (hF : ∃ t, (problem inst).Feasible t)
    {l : List LogEvent} (hlog : (coreBoost D fuel cb env s).2.io.logger = some l) :
    (∃ m, List.Forall₂ (LowerFor inst) ((searched inst).take m) (ollSums l)) ∧ ∀ e ∈ l, CoreFine e := by
  obtain ⟨t, ht⟩ := hF
  have h := lk_coreBoost (D := D) (fuel := fuel) (cb := cb) hs nd hn ⟨t, (feasible_iff t).1 ht⟩
    (fresh_fine hs.wf (started_fresh h0)).binv (started_lk h0)
  have key : LBX inst opts bcg (coreBoost D fuel cb env s).2 := by
    unfold wp at h
    cases hr : coreBoost D fuel cb env s with
    | mk r s1 =>
      rw [hr] at h
      cases r with
      | ok b => obtain ⟨ys, h1, h2⟩ := h; exact .ofMin h1 h2
      | error e => exact h
  obtain ⟨k, ys, h1, h2⟩ := key
  obtain ⟨h3, h4⟩ := h1 l hlog
  obtain ⟨m, hm⟩ := searchedTo_take (inst := inst) k
  refine ⟨⟨m, ?_⟩, h4⟩
  unfold ollSums
  rw [h3, ← hm]
  exact h2.imp fun _ _ h => h.lower

/-! ## Examples -/

/-- The messages about cores. -/
def Example.coreMsgs : List LogEvent → List (String × List Nat)
  | [] => []
  | .core w n m :: es => ("core", [w, n, m]) :: Example.coreMsgs es
  | .coreExhaustion k w :: es => ("exhausted", [k, w]) :: Example.coreMsgs es
  | .ideal b :: es => ("ideal", b) :: Example.coreMsgs es
  | _ :: es => Example.coreMsgs es

/-- Messages of core boosting, and what they add up to. -/
def Example.boostCores (inst : Instance) (opts : KernelOptions) (env : Env) :
    Option (Bool × List (String × List Nat) × List Nat) :=
  (Alg.pMinimal.new (P := RefTot.RefTree 1) (C := RefTot.RefTree 0) inst defaultBlockingClause opts).bind fun s =>
    let r := coreBoost RefTot 50 {} env s.attachLogger
    r.2.io.logger.map fun l => (match r.1 with | .ok b => b | .error _ => false, Example.coreMsgs l, ollSums l)

/-- At least two of three literals have to be true, and at least one of them false. -/
def Example.pairs : Instance where
  clauses := [[Lit.pos 0, Lit.pos 1], [Lit.pos 1, Lit.pos 2], [Lit.pos 0, Lit.pos 2],
    [Lit.negOf 0, Lit.negOf 1, Lit.negOf 2]]
  objs := [.weighted (-1) [(Lit.pos 0, 3), (Lit.pos 1, 1), (Lit.pos 2, 2)] 0 0, .constant 4 1 0,
    .unweighted 1 5 [Lit.negOf 0, Lit.negOf 1, Lit.negOf 2] 2 0]
  vm := ⟨3, 2, 2⟩

theorem Example.pairs_setting (opts : KernelOptions) (h : opts.enumeration = .noEnum) (n : Nat) :
    Setting Example.pairs defaultBlockingClause opts (Example.interruptedAt n) where
  wf := ⟨by decide, by decide, by decide, by decide⟩
  fits := Example.fitsIsize_of_sum (by decide)
  unit := by
    intro off w lits i lb h
    simp [Example.pairs] at h
    omega
  enum := by rw [h]; exact .noEnum _
  oracle := by
    have h := refEnv_correct true
    refine ⟨h.sat, h.unsat, fun t db as hi => ?_, h.flip⟩
    have := h.interrupted t db as hi (t + 1) (by omega)
    simp [refEnv] at this
  tight h := by simp [Example.interruptedAt, refEnv] at h

/-- An assignment that meets the clauses. -/
example : (problem Example.pairs).Feasible fun v => v == 0 || v == 1 := by
  intro c hc
  simp only [problem, Example.pairs, List.mem_cons, List.not_mem_nil, or_false] at hc
  rcases hc with rfl | rfl | rfl | rfl
  · exact ⟨Lit.pos 0, by simp, rfl⟩
  · exact ⟨Lit.pos 1, by simp, rfl⟩
  · exact ⟨Lit.pos 0, by simp, rfl⟩
  · exact ⟨Lit.negOf 2, by simp, rfl⟩

example : NoDupCores (Example.interruptedAt 12) ∧ NoDupLits Example.pairs :=
  ⟨fun t lim db as => refEnv_noDupCores true t lim db as, by unfold NoDupLits; decide⟩

/-- The ideal point is `[3, 0, 1]`, which stands for the values `[2, 4, 6]`. With core exhaustion, the first objective has
two cores of weight one, one of which is exhausted up to two. -/
example : Example.boostCores Example.pairs { coreExhaustion := true } (Example.interruptedAt 1000) = some (true,
    [("core", [1, 3, 3]), ("core", [1, 2, 2]), ("exhausted", [2, 1]), ("core", [1, 3, 3]), ("ideal", [3, 0, 1])],
    [3, 1]) := by decide +kernel

/-- With core minimization, the first core is reduced. -/
example : Example.boostCores Example.pairs { coreMinimization := true } (Example.interruptedAt 1000) = some (true,
    [("core", [2, 3, 2]), ("core", [1, 2, 2]), ("core", [1, 3, 3]), ("ideal", [3, 0, 1])],
    [3, 1]) := by decide +kernel

/-- Core boosting that is interrupted. -/
example : Example.boostCores Example.pairs { coreExhaustion := true } (Example.interruptedAt 12) = some (false,
    [("core", [1, 3, 3]), ("core", [1, 2, 2])], [2]) := by decide +kernel

end Scuttle
