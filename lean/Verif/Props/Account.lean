import Verif.Proof.Account
import Verif.Props.DistinctLog
import Mathlib.Tactic.Ring
import Mathlib.Tactic.Linarith

/-!
# C72: which oracle calls a run needs
-/

set_option linter.unusedSectionVars false

namespace Scuttle

open Spec

variable {P C : Type} [UbEnc P] [UbEnc C] {env : Env} {s : Slv P C}

theorem bal_eq (x : AcCtx) (es : List LogEvent) :
    x.bal es = (numOf .oracleCalls es : Int) - numOf .candidates es - x.point * numOf .points es - x.sol * numOf .solutions es -
      x.harvest * harvests es - x.fence * fenceMoves es := by
  induction es with
  | nil => simp [AcCtx.bal, numOf, harvests, fenceMoves]
  | cons e es ih =>
    have hc : x.bal (e :: es) = x.debt e + x.bal es := by simp [AcCtx.bal]
    rw [hc, ih]
    unfold numOf harvests fenceMoves
    simp only [List.countP_cons]
    cases e with
    | routineStart n =>
      simp only [AcCtx.debt]
      rcases Bool.eq_false_or_eq_true (n == "harvest") with h | h <;> simp only [Limited.event, h, if_true, Bool.false_eq_true,
        if_false, Nat.add_zero, Nat.cast_add, Nat.cast_one] <;> ring
    | _ => simp only [Limited.event, AcCtx.debt, if_true, Bool.false_eq_true, if_false, Nat.add_zero, Nat.cast_add,
        Nat.cast_one]; ring

/-- What the invariants say about a whole call. -/
theorem account_run (x : AcCtx) {alg : Alg} {fuel : Nat} {limits : Limits} {l l' : List LogEvent} (hl : s.io.logger = some l)
    (h1 : x.opts = s.k.opts) (h2 : x.pre = l)
    (h : ∀ {s : Slv P C}, AcInv x 0 s → wp env (alg.solve fuel limits) (fun _ => AcInv x 1) (fun _ => AcEnd x) s)
    (hm : 1 ≤ x.max) (hl' : (alg.solve fuel limits env s).2.io.logger = some l') :
    ∃ new, l' = l ++ new ∧ x.bal new ≤ x.max ∧
      ((alg.solve fuel limits env s).1 = .ok () → x.bal new ≤ 1 ∧ (x.ex → x.bal new = 1)) := by
  have h0 : AcInv x 0 s := ⟨h1.symm, fun l1 hl1 => by
    rw [hl] at hl1
    cases hl1
    exact ⟨[], by rw [h2, List.append_nil], Int.le_refl _, fun _ => rfl⟩⟩
  have h := h h0
  unfold wp at h
  revert h hl'
  rcases alg.solve fuel limits env s with ⟨r, s'⟩
  intro hl' h
  rw [← h2]
  cases r with
  | ok u =>
    obtain ⟨es, g1, g2, g3⟩ := AcInv.log h l' hl'
    exact ⟨es, g1, Int.le_trans g2 hm, fun _ => ⟨g2, g3⟩⟩
  | error e =>
    obtain ⟨es, g1, g2⟩ := h l' hl'
    exact ⟨es, g1, g2, fun hr => by cases hr⟩

/-- What is charged to what. -/
def acctOf (point harvest fence max : Int) (sol : Int) (ex : Prop) (opts : KernelOptions) (pre : List LogEvent) : AcCtx :=
  ⟨point, sol, harvest, fence, max, ex, opts, pre⟩

theorem startSolving_ac {x : AcCtx} {b : Int} (limits : Limits) :
    Tr (P := P) (C := C) env (AcInv x b) (startSolving limits) (fun _ => AcInv x b) (fun _ => AcEnd x) :=
  fun _ h => h.frame rfl rfl

theorem pmin_run {x : AcCtx} (ok : AcOK x) (hp : x.point = 1) (hm : x.max = 1) (fuel : Nat) (limits : Limits) {s : Slv P C}
    (h : AcInv x 0 s) : wp env (Alg.pMinimal.solve fuel limits) (fun _ => AcInv x 1) (fun _ => AcEnd x) s :=
  ((startSolving_ac limits).bind fun _ => ac_pminMain (b := 0) ok hp (by omega) fuel) s h

theorem lb_run {x : AcCtx} (ok : AcOK x) (hp : x.point = 1) (hh : x.harvest = 2) (hf : x.fence = 1) (hm : x.max = 1) (fuel : Nat)
    (limits : Limits) {s : Slv P C} (h : AcInv x 0 s) :
    wp env (Alg.lowerBounding.solve fuel limits) (fun _ => AcInv x 1) (fun _ => AcEnd x) s :=
  ((startSolving_ac limits).bind fun _ => ac_lbMain (b := 0) ok hp hh hf (by omega) fuel) s h

theorem bos_run {x : AcCtx} (ok : AcOK x) (hx : ¬ x.ex) (hp : x.point = 3) (hm : x.max = 3) (fuel : Nat) (limits : Limits)
    {s : Slv P C} (h : AcInv x 0 s) : wp env (Alg.biOptSat.solve fuel limits) (fun _ => AcInv x 1) (fun _ => AcEnd x) s :=
  ((startSolving_ac limits).bind fun _ => ac_bosMain (b := 0) ok hx hp (by omega) fuel) s h

/-! ## The theorems -/

/-- C72: each oracle call of P-minimal finds a candidate, ends the minimization of a point, belongs to the enumeration of
solutions, or is the last call. Hence, with whatever limits and however the call ends, there are at most as many oracle calls as
candidates, points and solutions, plus one. Without enumeration, solutions do not count, and a complete call makes exactly that
many oracle calls. -/
theorem pminimal_oracle_calls (fuel : Nat) (limits : Limits) {l l' : List LogEvent} (hl : s.io.logger = some l)
    (hl' : (Alg.pMinimal.solve fuel limits env s).2.io.logger = some l') :
    ∃ new, l' = l ++ new ∧
      numOf .oracleCalls new ≤ numOf .candidates new + numOf .points new + numOf .solutions new + 1 ∧
      (s.k.opts.enumeration = .noEnum →
        numOf .oracleCalls new ≤ numOf .candidates new + numOf .points new + 1 ∧
        ((Alg.pMinimal.solve fuel limits env s).1 = .ok () →
          numOf .oracleCalls new = numOf .candidates new + numOf .points new + 1)) := by
  obtain ⟨new, h1, h2, -⟩ := account_run (acctOf 1 0 0 1 1 False s.k.opts l) hl rfl rfl
    (fun h => pmin_run ⟨by norm_num [acctOf], by norm_num [acctOf], fun h => False.elim h, .inr rfl⟩ rfl rfl fuel limits h)
      (by norm_num [acctOf]) hl'
  rw [bal_eq] at h2
  simp only [acctOf] at h2
  refine ⟨new, h1, by omega, fun hn => ?_⟩
  obtain ⟨new', h1', h2', h3'⟩ := account_run (acctOf 1 0 0 1 0 True s.k.opts l) hl rfl rfl
    (fun h => pmin_run ⟨by norm_num [acctOf], by norm_num [acctOf], fun _ => rfl, .inl hn⟩ rfl rfl fuel limits h)
      (by norm_num [acctOf]) hl'
  obtain rfl : new = new' := List.append_cancel_left (h1.symm.trans h1')
  rw [bal_eq] at h2' h3'
  simp only [acctOf] at h2' h3'
  refine ⟨by omega, fun hr => ?_⟩
  have := (h3' hr).2 trivial
  omega

/-- C72: the same for lower-bounding, where in addition each move of the fence and each harvest is preceded by an oracle call,
and each harvest ends with one. -/
theorem lowerbounding_oracle_calls (fuel : Nat) (limits : Limits) {l l' : List LogEvent} (hl : s.io.logger = some l)
    (hl' : (Alg.lowerBounding.solve fuel limits env s).2.io.logger = some l') :
    ∃ new, l' = l ++ new ∧
      numOf .oracleCalls new ≤
        numOf .candidates new + numOf .points new + numOf .solutions new + fenceMoves new + 2 * harvests new + 1 ∧
      (s.k.opts.enumeration = .noEnum →
        numOf .oracleCalls new ≤ numOf .candidates new + numOf .points new + fenceMoves new + 2 * harvests new + 1 ∧
        ((Alg.lowerBounding.solve fuel limits env s).1 = .ok () →
          numOf .oracleCalls new = numOf .candidates new + numOf .points new + fenceMoves new + 2 * harvests new + 1)) := by
  obtain ⟨new, h1, h2, -⟩ := account_run (acctOf 1 2 1 1 1 False s.k.opts l) hl rfl rfl
    (fun h => lb_run ⟨by norm_num [acctOf], by norm_num [acctOf], fun h => False.elim h, .inr rfl⟩ rfl rfl rfl rfl fuel limits h)
      (by norm_num [acctOf]) hl'
  rw [bal_eq] at h2
  simp only [acctOf] at h2
  refine ⟨new, h1, by omega, fun hn => ?_⟩
  obtain ⟨new', h1', h2', h3'⟩ := account_run (acctOf 1 2 1 1 0 True s.k.opts l) hl rfl rfl
    (fun h => lb_run ⟨by norm_num [acctOf], by norm_num [acctOf], fun _ => rfl, .inl hn⟩ rfl rfl rfl rfl fuel limits h)
      (by norm_num [acctOf]) hl'
  obtain rfl : new = new' := List.append_cancel_left (h1.symm.trans h1')
  rw [bal_eq] at h2' h3'
  simp only [acctOf] at h2' h3'
  refine ⟨by omega, fun hr => ?_⟩
  have := (h3' hr).2 trivial
  omega

/-- C72: BiOptSat makes at most three oracle calls for each point in addition to those that find a candidate and those of the
enumeration, and one more if it is complete. -/
theorem bioptsat_oracle_calls (fuel : Nat) (limits : Limits) {l l' : List LogEvent} (hl : s.io.logger = some l)
    (hl' : (Alg.biOptSat.solve fuel limits env s).2.io.logger = some l') :
    ∃ new, l' = l ++ new ∧ ∀ sols, sols = (if s.k.opts.enumeration = .noEnum then 0 else numOf .solutions new) →
      numOf .oracleCalls new ≤ numOf .candidates new + 3 * numOf .points new + sols + 3 ∧
      ((Alg.biOptSat.solve fuel limits env s).1 = .ok () →
        numOf .oracleCalls new ≤ numOf .candidates new + 3 * numOf .points new + sols + 1) := by
  by_cases hn : s.k.opts.enumeration = .noEnum
  · obtain ⟨new, h1, h2, h3⟩ := account_run (acctOf 3 0 0 3 0 False s.k.opts l) hl rfl rfl
      (fun h => bos_run ⟨by norm_num [acctOf], by norm_num [acctOf], fun h => False.elim h, .inl hn⟩ (fun h => h) rfl rfl fuel limits h)
      (by norm_num [acctOf]) hl'
    rw [bal_eq] at h2 h3
    simp only [acctOf] at h2 h3
    refine ⟨new, h1, fun sols hs => ?_⟩
    rw [if_pos hn] at hs
    refine ⟨by omega, fun hr => ?_⟩
    have := (h3 hr).1
    omega
  · obtain ⟨new, h1, h2, h3⟩ := account_run (acctOf 3 0 0 3 1 False s.k.opts l) hl rfl rfl
      (fun h => bos_run ⟨by norm_num [acctOf], by norm_num [acctOf], fun h => False.elim h, .inr rfl⟩ (fun h => h) rfl rfl fuel limits h)
      (by norm_num [acctOf]) hl'
    rw [bal_eq] at h2 h3
    simp only [acctOf] at h2 h3
    refine ⟨new, h1, fun sols hs => ?_⟩
    rw [if_neg hn] at hs
    refine ⟨by omega, fun hr => ?_⟩
    have := (h3 hr).1
    omega

variable [LawfulUbEnc P] [LawfulUbEnc C] {inst : Instance} {opts : KernelOptions} {bcg : Assignment → Clause}

/-- C72 together with C71: a call of P-minimal without enumeration makes at most as many oracle calls as there are vectors of
internal costs, plus one for each point and one more. -/
theorem pminimal_oracle_calls_bounded (hs : Setting inst bcg opts env) (h0 : Started .pMinimal inst bcg opts s)
    (hn : opts.enumeration = .noEnum) (fuel : Nat) (limits : Limits) {l l' : List LogEvent} (hl : s.io.logger = some l)
    (hl' : (Alg.pMinimal.solve fuel limits env s).2.io.logger = some l') :
    ∃ new, l' = l ++ new ∧ numOf .oracleCalls new ≤ costVectors inst.objs + numOf .points new + 1 := by
  obtain ⟨new, h1, -, h2⟩ := pminimal_oracle_calls fuel limits hl hl'
  obtain ⟨cs, g1, -, g2⟩ := candidates_not_repeated (by decide) hs h0 [] fuel limits (l := l) (l' := l') hl hl'
  refine ⟨new, h1, ?_⟩
  have h3 := (h2 (by rw [(started_prepared hs.wf h0).opts]; exact hn)).1
  have h4 : cs.length = numOf .candidates new := by
    subst h1
    have : candidates (l ++ new) = candidates l ++ candidates new := List.filterMap_append
    rw [this, List.map_append] at g1
    rw [← List.append_cancel_left g1, List.length_map]
    clear * -
    unfold numOf
    induction new with
    | nil => rfl
    | cons e es ih =>
      rw [List.countP_cons, ← ih]
      unfold candidates
      cases e <;> simp [Limited.event]
  omega

/-! ## Examples -/

/-- Oracle calls, candidates, points, solutions, moves of the fence and harvests of a call that is `Done`. -/
def Example.counts (inst : Instance) (alg : Alg) (opts : KernelOptions) (limits : Limits) : Option (Bool × List Nat) :=
  (alg.new (P := RefEnc 1) (C := RefEnc 0) inst defaultBlockingClause opts).bind fun s =>
    let r := alg.solve 50 limits (refEnv true) s.attachLogger
    r.2.io.logger.map fun l => (match r.1 with | .ok () => true | _ => false,
      [numOf .oracleCalls l, numOf .candidates l, numOf .points l, numOf .solutions l, fenceMoves l, harvests l])

/-- Complete calls: six is three plus two plus one, thirteen is two plus two plus four plus twice two plus one, and BiOptSat
needs less than five plus thrice two plus one. -/
example : Example.counts Example.again .pMinimal {} Limits.none = some (true, [6, 3, 2, 2, 0, 0]) ∧
    Example.counts Example.again .lowerBounding {} Limits.none = some (true, [13, 2, 2, 2, 4, 2]) ∧
    Example.counts Example.again .biOptSat {} Limits.none = some (true, [9, 5, 2, 2, 0, 0]) :=
  ⟨by decide +kernel, by decide +kernel, by decide +kernel⟩

/-- With enumeration, each solution may need an oracle call, and the bounds are reached. -/
example : Example.counts Example.again .pMinimal { enumeration := .solutions none } Limits.none =
      some (true, [8, 3, 2, 2, 0, 0]) ∧
    Example.counts Example.again .lowerBounding { enumeration := .solutions none } Limits.none =
      some (true, [15, 2, 2, 2, 4, 2]) ∧
    Example.counts Example.again .biOptSat { enumeration := .solutions none } Limits.none =
      some (true, [11, 5, 2, 2, 0, 0]) :=
  ⟨by decide +kernel, by decide +kernel, by decide +kernel⟩

/-- Calls that are cut short, with an oracle call that nothing has paid for yet. -/
example : Example.counts Example.again .pMinimal {} { oracleCalls := some 2 } = some (false, [2, 1, 0, 0, 0, 0]) ∧
    Example.counts Example.again .biOptSat {} { oracleCalls := some 4 } = some (false, [4, 2, 0, 0, 0, 0]) :=
  ⟨by decide +kernel, by decide +kernel⟩

/-- The last bound is for the first of these calls, which makes six oracle calls: twenty plus two plus one. -/
example : Setting Example.again defaultBlockingClause {} (refEnv true) ∧ costVectors Example.again.objs = 20 :=
  ⟨Example.again_setting, by decide⟩

end Scuttle
