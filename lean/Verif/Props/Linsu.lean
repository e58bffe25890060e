import Verif.Props.Solve

/-!
# C42: linear search
-/

set_option linter.unusedSectionVars false

namespace Scuttle

open Spec

namespace Spec

/-- The assignment satisfies the clauses of the instance and the base assumptions. -/
def FeasibleUnder (inst : Instance) (base : List Lit) (t : Asg) : Prop :=
  (problem inst).Feasible t ∧ ∀ l ∈ base, LitTrue t l

/-- Value of the objective that belongs to an internal cost, `/repo/core/src/types.rs:266-275`. -/
def external (o : Objective) (cost : Nat) : Int := (cost * o.unitWeight : Nat) + o.offset

/-- Sum of the weights of an objective, `/repo/core/src/types.rs:224-246`. -/
def weightSum : Objective → Nat
  | .weighted _ lits _ _ => (lits.map Prod.snd).sum
  | .unweighted _ _ lits _ _ => lits.length
  | .constant .. => 0

/-- An upper bound given to a linear search is valid: it is attained, by the given assignment if there is one. A bound
without assignment is not above the sum of the weights. -/
def ValidUpper (inst : Instance) (base : List Lit) (o : Objective) : Option (Nat × Option Assignment) → Prop
  | none => True
  | some (b, none) => b ≤ weightSum o ∧ ∃ t, FeasibleUnder inst base t ∧ objValue o t ≤ external o b
  | some (b, some sol) => ∃ t n, FeasibleUnder inst base t ∧ objValue o t = external o b ∧ Restricts sol t n ∧
      inst.vm.maxEncVar < n

/-- What a linear search should return: an assignment that attains the cost, which is the smallest value or at most the
given lower bound. -/
structure Optimum (inst : Instance) (base : List Lit) (o : Objective) (lb cost : Nat) (sol : Assignment) : Prop where
  attained : ∃ t n, FeasibleUnder inst base t ∧ Restricts sol t n ∧ inst.vm.maxEncVar < n ∧ objValue o t ≤ external o cost
  minimal : cost ≤ lb ∨ ∀ t, FeasibleUnder inst base t → external o cost ≤ objValue o t

end Spec

variable {P C : Type} [UbEnc P] [UbEnc C] [LawfulUbEnc P] [LawfulUbEnc C]
variable {env : Env} {s : Slv P C} {inst : Instance} {opts : KernelOptions} {bcg : Assignment → Clause}

/-- Base assumptions over the variables of the instance. -/
def OverInstance (inst : Instance) (base : List Lit) : Prop := ∀ l ∈ base, l.var ≤ inst.vm.maxEncVar

/-- If solutions are tightened, a search that starts without upper bound has no base assumptions: the first solution is
tightened without regard for them. The crate always gives an upper bound with a solution
(`/repo/core/src/algs/bioptsat.rs:398-404`, `:424-433`). -/
def BaseOK (env : Env) (base : List Lit) (ub : Option (Nat × Option Assignment)) : Prop :=
  env.tighten = true → ub = none → base = []

/-- Solvers on which any number of linear searches have been performed, for any of the objectives. -/
inductive Searched (env : Env) (inst : Instance) (bcg : Assignment → Clause) (opts : KernelOptions) : Slv P C → Prop where
  | start {alg : Alg} {s : Slv P C} : Started alg inst bcg opts s → Searched env inst bcg opts s
  | search {s s' : Slv P C} {fuel i : Nat} {base ub lb r} {o : Objective} : Searched env inst bcg opts s →
      inst.objs[i]? = some o → OverInstance inst base → BaseOK env base ub → ValidUpper inst base o ub →
      linsu fuel i i base ub lb env s = (.ok r, s') → Searched env inst bcg opts s'

theorem restricts_iff (x : Assignment) (t : Asg) (n : Nat) : Restricts x t n ↔ x = Assignment.ofModel t n := by
  unfold Restricts
  constructor
  · rintro ⟨h1, h2⟩
    apply List.ext_getElem?
    intro v
    by_cases hv : v < n
    · rw [h2 v hv]; simp [Assignment.ofModel, hv]
    · rw [List.getElem?_eq_none (by omega), List.getElem?_eq_none (by simp; omega)]
  · rintro rfl
    refine ⟨by simp, fun v hv => by simp [Assignment.ofModel, hv]⟩

theorem external_le_iff (hpos : PosUnit inst) {o : Objective} (ho : o ∈ inst.objs) (t : Asg) (c : Nat) :
    (objValue o t ≤ external o c ↔ icost o t ≤ c) ∧ (external o c ≤ objValue o t ↔ c ≤ icost o t) := by
  have h := unitWeight_pos hpos ho
  rw [objValue_eq]
  unfold extVal external
  have h1 : icost o t * o.unitWeight ≤ c * o.unitWeight ↔ icost o t ≤ c := Nat.mul_le_mul_right_iff h
  have h2 : c * o.unitWeight ≤ icost o t * o.unitWeight ↔ c ≤ icost o t := Nat.mul_le_mul_right_iff h
  constructor <;> omega

theorem weightSum_eq (o : Objective) : weightSum o = maxCost o := by
  cases o <;> simp [weightSum, maxCost, Objective.iter, List.map_map, Function.comp_def]

/-- What is known between the searches. -/
structure SearchInv (env : Env) (inst : Instance) (bcg : Assignment → Clause) (opts : KernelOptions) (s : Slv P C) : Prop where
  io : IoInv env inst.objs.length s.io
  inv : DBInv (inst.pb opts bcg) (fun _ => True) s
  zero : ConstZero (inst.pb opts bcg) s
  off : ∀ (i : Nat) (e : ObjEnc P C), s.encs[i]? = some e → e.offset = 0

/-- What a linear search does. -/
theorem SearchInv.linsu {fuel i : Nat} {base : List Lit} {ub lb} {o : Objective} (hs : Setting inst bcg opts env)
    (h : SearchInv env inst bcg opts s) (ho : inst.objs[i]? = some o) (hb : OverInstance inst base)
    (hbt : BaseOK env base ub) (hub : ValidUpper inst base o ub) :
    wp env (linsu fuel i i base ub lb)
      (fun r s' => SearchInv env inst bcg opts s' ∧ match r with
        | none => ub = none ∧ ∀ t, ¬ FeasibleUnder inst base t
        | some (cost, sol) => Optimum inst base o (lb.getD 0) cost sol)
      (fun e _ => e ≠ .panic ∧ (e = .error → LogFail env) ∧ e ≠ .terminated .ppLimit ∧ e ≠ .terminated .solsLimit ∧
        (e = .fuel → fuel ≤ (inst.pb opts bcg).sumMax)) s := by
  have wf := pb_wf (opts := opts) (bcg := bcg) hs.wf
  have hmem := List.mem_of_getElem? ho
  have hR : ∀ t, (cubeEval t base = true ↔ ∀ l ∈ base, LitTrue t l) := by
    intro t; simp [cubeEval, Lit.eval_iff]
  have hfeas : ∀ t, FeasibleUnder inst base t ↔ (inst.pb opts bcg).Sol t ∧ cubeEval t base = true := by
    intro t
    unfold FeasibleUnder
    rw [hR, feasible_iff (opts := opts) (bcg := bcg)]
  have hn0 : (inst.pb opts bcg).n0 = inst.vm.maxEncVar + 1 := rfl
  have hbelow : LitsBelow (inst.pb opts bcg).n0 base := fun l hl => by have := hb l hl; omega
  have hinv : ∀ s', EiStep i s s' → DBInv (inst.pb opts bcg) (fun _ => True) s' → IoInv env inst.objs.length s'.io →
      SearchInv env inst bcg opts s' := by
    intro s' h1 h2 h3
    refine ⟨h3, h2, h.zero.encStep h1.step.enc, ?_⟩
    intro j e he
    have hlt : j < s.encs.length := by
      rw [← h1.step.enc.len]; exact (List.getElem?_eq_some_iff.1 he).1
    obtain ⟨e', g1, g2, -, -, -⟩ := h1.step.enc.enc j _ (List.getElem?_eq_getElem hlt)
    rw [he, Option.some.injEq] at g1
    subst g1
    rw [g2]
    exact h.off j _ (List.getElem?_eq_getElem hlt)
  refine wp_linsu (R := fun t => cubeEval t base = true) wf (CorrectOracle.ok hs.oracle) hs.tok h.io h.inv h.zero ?_ (o := o)
    (by exact ho) (by exact ho) ?_ lb ?_ ub ?_ ?_ fuel ?_ ?_ ?_
  · intro t m hm
    simp only [cubeEval_agree hm hbelow]
  · intro s' h1
    exact ⟨hbelow.mono (Nat.le_trans h.inv.next h1.step.next), fun m _ hm => hm, fun m _ hm => hm⟩
  · intro e he
    rw [h.off i e he]
    exact Nat.zero_le _
  · rintro ⟨b, sol⟩ rfl
    cases sol with
    | none =>
      obtain ⟨h0, t, h1, h2⟩ := hub
      rw [hfeas] at h1
      rw [(external_le_iff hs.unit hmem t b).1] at h2
      refine ⟨Nat.le_trans ?_ (le_sum_of_mem (List.mem_map_of_mem (f := maxCost) hmem)), t, h1.1, trivial, h1.2, h2⟩
      rw [← weightSum_eq]
      exact h0
    | some sol =>
      obtain ⟨t, n, h1, h2, h3, h4⟩ := hub
      rw [hfeas] at h1
      have h5 := (external_le_iff hs.unit hmem t b).1.1 (by omega)
      have h6 := (external_le_iff hs.unit hmem t b).2.1 (by omega)
      exact ⟨t, n, (restricts_iff _ _ _).1 h3, by omega, h1.1, trivial, h1.2, by omega⟩
  · intro h1 h2 t t' _ _
    rw [hbt h2 h1]
    rfl
  · intro cost sol s' h1 h2 h3 h4
    refine ⟨hinv s' h1 h2 h3, ?_, ?_⟩
    · obtain ⟨t, n, c, h5, h6, -⟩ := h4.found
      exact ⟨t, n, (hfeas t).2 ⟨h5.sol, h5.base⟩, (restricts_iff _ _ _).2 h5.eq, by have := h5.vars; omega,
        (external_le_iff hs.unit hmem t cost).1.2 (by rw [h5.cost]; exact h6)⟩
    · rcases h4.minimal with h5 | h5
      · exact .inl h5
      · right
        intro t ht
        rw [hfeas] at ht
        exact (external_le_iff hs.unit hmem t cost).2.2 (h5 t ht.1 trivial ht.2)
  · intro s' h0 h1 h2 h3 h4
    refine ⟨hinv s' h1 h2 h3, h0, fun t ht => ?_⟩
    rw [hfeas] at ht
    exact h4 t ht.1 trivial ht.2
  · intro e s' h1
    exact ⟨h1.panic, h1.error, h1.limit.1, h1.limit.2, h1.fuel⟩

theorem Searched.inv (hs : Setting inst bcg opts env) (h : Searched env inst bcg opts s) : SearchInv env inst bcg opts s := by
  induction h with
  | @start alg s h =>
    have hf := fresh_ok hs.wf (started_fresh h)
    exact ⟨⟨hf.base, fun _ => by rw [hf.lims]; exact ⟨by simp [Limits.none], by simp [Limits.none], by simp [Limits.none],
      by simp [Limits.none]⟩⟩, hf.core.inv, hf.zero, hf.off⟩
  | @search s s' fuel i base ub lb r o _ h1 h2 h2' h3 h4 ih =>
    have hw := ih.linsu (fuel := fuel) (lb := lb) hs h1 h2 h2' h3
    unfold wp at hw
    rw [h4] at hw
    exact hw.1

/-- C42: a linear search for one of the objectives returns a feasible assignment with the smallest value among those that
satisfy the base assumptions, or at most the given lower bound. It returns nothing only if there is no such assignment. -/
theorem linsu_optimum {fuel i : Nat} {base : List Lit} {ub lb} {o : Objective} {r s'} (hs : Setting inst bcg opts env)
    (h : Searched env inst bcg opts s) (ho : inst.objs[i]? = some o) (hb : OverInstance inst base)
    (hbt : BaseOK env base ub) (hub : ValidUpper inst base o ub) (hr : linsu fuel i i base ub lb env s = (.ok r, s')) :
    match r with
    | none => ∀ t, ¬ FeasibleUnder inst base t
    | some (cost, sol) => Optimum inst base o (lb.getD 0) cost sol := by
  have hw := (h.inv hs).linsu (fuel := fuel) (lb := lb) hs ho hb hbt hub
  unfold wp at hw
  rw [hr] at hw
  cases r with
  | none => exact hw.2.2
  | some r => exact hw.2

/-- C42: a linear search never panics, fails only if the logger does, and ends within a number of iterations that depends
on the weights of the objectives only. -/
theorem linsu_ends {fuel i : Nat} {base : List Lit} {ub lb} {o : Objective} {e s'} (hs : Setting inst bcg opts env)
    (h : Searched env inst bcg opts s) (ho : inst.objs[i]? = some o) (hb : OverInstance inst base)
    (hbt : BaseOK env base ub) (hub : ValidUpper inst base o ub) (hr : linsu fuel i i base ub lb env s = (.error e, s')) :
    e ≠ .panic ∧ (e = .error → LogFail env) ∧ (e = .fuel → fuel ≤ (inst.objs.map weightSum).sum) := by
  have hw := (h.inv hs).linsu (fuel := fuel) (lb := lb) hs ho hb hbt hub
  unfold wp at hw
  rw [hr] at hw
  obtain ⟨h1, h2, -, -, h3⟩ := hw
  refine ⟨h1, h2, fun he => ?_⟩
  have h4 : weightSum = maxCost := funext weightSum_eq
  rw [h4]
  exact h3 he

/-- Two linear searches in a row on the example: first for the second objective, then for the first one with the base
assumption that variable 2 is false. -/
def Example.linsu : Option (Option Nat × Option Nat × Option Nat) :=
  (Alg.biOptSat.new (P := RefEnc 1) (C := RefEnc 0) Example.inst defaultBlockingClause {}).bind fun s =>
    match Scuttle.linsu 50 1 1 [] none none refEnv s with
    | (.ok r1, s1) =>
      match Scuttle.linsu 50 0 0 [(Lit.pos 2).not] (some (5, none)) (some 1) refEnv s1 with
      | (.ok r2, s2) =>
        match Scuttle.linsu 50 0 0 [(Lit.pos 2).not, (Lit.pos 1).not] none none refEnv s2 with
        | (.ok r3, _) => some (r1.map Prod.fst, r2.map Prod.fst, r3.map Prod.fst)
        | _ => none
      | _ => none
    | _ => none

/-- The hypotheses are met, and all three outcomes occur. -/
example : OverInstance Example.inst [(Lit.pos 2).not] ∧
    ValidUpper Example.inst [(Lit.pos 2).not] (.weighted (-2) [(Lit.pos 0, 2), (Lit.pos 1, 3)] 0 0) (some (5, none)) ∧
    Example.linsu = some (some 0, some 3, none) := by
  refine ⟨by intro l hl; simp at hl; subst hl; decide, ⟨by decide, fun v => v != 2, ?_, ?_⟩, by decide +kernel⟩
  · constructor
    · unfold Problem.Feasible problem Example.inst; decide
    · decide
  · decide

end Scuttle
