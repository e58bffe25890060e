import Verif.Proof.IoLog
import Verif.Props.Solve

/-!
# C11, C12, C13, C27: limits, interrupts, statistics and the log

The theorems hold for every oracle, correct or not, and for every encoding, unless stated otherwise.
-/

set_option linter.unusedSectionVars false

namespace Scuttle

open Spec

variable {P C : Type} [UbEnc P] [UbEnc C] {env : Env} {s : Slv P C} {limits : Limits}

/-- How many were counted in a call. -/
def Spec.counted (k : Limited) (before after : Slv P C) : Nat := k.count after.io.stats - k.count before.io.stats

theorem limits_run (alg : Alg) (hl : PosLimits limits) (fuel : Nat) :
    wp env (alg.solve fuel limits) (fun _ s' => ∀ k, LimRun limits s.io.stats k s')
      (fun e s' => ∀ k, LimEnd limits s.io.stats k e s') s := by
  refine wp_mono ((limLogic env limits s.io.stats).solve (d := 0) alg fuel limits ?_) (fun _ _ h => ?_) (fun _ _ h => h)
  · show ∀ k, LimRun limits s.io.stats k _
    intro k
    unfold LimRun
    have h1 := hl.pps; have h2 := hl.sols; have h3 := hl.candidates; have h4 := hl.oracleCalls
    cases k <;> simp only [Limited.count, Limited.limit, le_refl, true_and, Nat.sub_self, Nat.sub_zero]
    all_goals
      split
      · assumption
      · rename_i n hn
        refine ⟨?_, hn⟩
        rcases Nat.eq_zero_or_pos n with rfl | h
        · exact absurd hn (by assumption)
        · exact h
  · rcases h with h | ⟨_, h⟩ <;> exact h

/-- C11: in one call with positive limits, for each limited thing: if it has the limit `n`, at most `n` are counted; if the
call returns `Done`, fewer; if the call ends for this reason, exactly `n`; and if `n` were counted the call did end, for
this reason or because of the logger, or the limit on points was reached together with the limit on solutions. Without
limit, the call does not end for this reason. -/
theorem limits_respected (alg : Alg) (hl : PosLimits limits) (fuel : Nat) (k : Limited) :
    let r := alg.solve fuel limits env s
    (∀ n, k.limit limits = some n →
      counted k s r.2 ≤ n ∧
      (r.1 = .ok () → counted k s r.2 < n) ∧
      (r.1 = .error (.terminated k.reason) → counted k s r.2 = n) ∧
      (counted k s r.2 = n → r.1 = .error (.terminated k.reason) ∨ r.1 = .error .error ∨
        (k = .solutions ∧ r.1 = .error (.terminated .ppLimit)))) ∧
    (k.limit limits = none → r.1 ≠ .error (.terminated k.reason)) := by
  have h := limits_run (env := env) (s := s) alg hl fuel
  unfold wp at h
  revert h
  intro h
  show _
  generalize hr : alg.solve fuel limits env s = r at h
  obtain ⟨r1, r2⟩ := r
  cases r1 with
  | ok u =>
    have hk := (h k).2
    refine ⟨fun n hn => ?_, fun _ => by simp⟩
    rw [hn] at hk
    unfold counted
    exact ⟨by have := hk.1; simp only; omega, fun _ => hk.1, by simp, fun hh => by have := hk.1; simp only at hh; omega⟩
  | error e =>
    have hk := (h k).2
    refine ⟨fun n hn => ?_, fun hn => ?_⟩
    · rw [hn] at hk
      unfold counted
      refine ⟨hk.1, by simp, fun he => hk.2.1 (by simpa using he), fun hh => ?_⟩
      rcases hk.2.2 hh with h | h | ⟨h1, h2⟩
      · exact Or.inl (by rw [h])
      · exact Or.inr (Or.inl (by rw [h]))
      · exact Or.inr (Or.inr ⟨h1, by rw [h2]⟩)
    · rw [hn] at hk
      simpa using hk

theorem log_run (alg : Alg) (fuel : Nat) {l0 : List LogEvent} (hl : s.io.logger = some l0) :
    wp env (alg.solve fuel limits)
      (fun _ s' => LogRun l0 s.io.stats 0 s' ∨ (alg = .biOptSat ∧ LogRun l0 s.io.stats 1 s'))
      (LogEnd env l0 s.io.stats) s := by
  refine wp_mono ((logLogic env l0 s.io.stats).solve (d := 0) alg fuel limits ?_) (fun _ _ h => h) (fun _ _ h => h)
  exact ⟨[], by show s.io.logger = _; rw [hl]; simp, fun k => by cases k <;> rfl, .zero .nil⟩

/-- C11: the message that reaches a limit is the last one of the call, except for what belongs to it. -/
theorem limit_ends_at_once (alg : Alg) (fuel : Nat) {l0 : List LogEvent} (hl : s.io.logger = some l0) (k : Limited)
    (hr : (alg.solve fuel limits env s).1 = .error (.terminated k.reason)) :
    ∃ es, (alg.solve fuel limits env s).2.io.logger = some (l0 ++ es) ∧ EndsWith k es := by
  have h := log_run (env := env) (limits := limits) alg fuel hl
  unfold wp at h
  generalize hr' : alg.solve fuel limits env s = r at h hr
  obtain ⟨r1, r2⟩ := r
  simp only at hr
  subst hr
  obtain ⟨es, h1, -, -, h4⟩ := h
  exact ⟨es, h1, h4 k rfl⟩

/-! ## C12 -/

theorem calls_run (alg : Alg) (hst : Sticky env.flag) (fuel : Nat) :
    wp env (alg.solve fuel limits) (fun _ s' => CallRun env s.io.calls s.io.tick true s')
      (CallEnd env s.io.calls s.io.tick) s := by
  refine wp_mono ((callLogic env hst s.io.calls s.io.tick).solve (d := 0) alg fuel limits ?_) (fun _ _ h => ?_)
    (fun _ _ h => h)
  · exact ⟨Nat.le.refl, [], by simp [startSolving, modifyS], by simp, by simp⟩
  · rcases h with h | ⟨_, h⟩ <;> exact h

/-- C12: the times at which oracle calls of this call to `solve` started. An oracle call that started at `t` has returned
at `t + 1`. At most the last one returned after the flag was set; in that case `solve` ends because of the interrupt (or
an error of the logger). The interrupt is only reported if the flag was set. -/
theorem interrupt_prompt (alg : Alg) (hst : Sticky env.flag) (fuel : Nat) :
    let r := alg.solve fuel limits env s
    ∃ new, r.2.io.calls = s.io.calls ++ new ∧ (∀ t ∈ new, s.io.tick ≤ t) ∧
      (∀ t ∈ new.dropLast, env.flag (t + 1) = false) ∧
      ((∃ t ∈ new, env.flag (t + 1) = true) → r.1 = .error (.terminated .interrupted) ∨ r.1 = .error .error) ∧
      (r.1 = .error (.terminated .interrupted) → ∃ t, env.flag t = true) ∧
      (r.1 = .ok () → new ≠ []) := by
  have h := calls_run (env := env) (s := s) (limits := limits) alg hst fuel
  unfold wp at h
  generalize hr' : alg.solve fuel limits env s = r at h
  obtain ⟨r1, r2⟩ := r
  cases r1 with
  | ok u =>
    obtain ⟨-, new, h1, h2, h3⟩ := h
    refine ⟨new, h1, fun t ht => (h2 t ht).1, fun t ht => (h2 t (List.dropLast_subset _ ht)).2, ?_, by simp, fun _ => h3 rfl⟩
    rintro ⟨t, ht, hf⟩
    rw [(h2 t ht).2] at hf
    simp at hf
  | error e =>
    obtain ⟨h0, new, h1, h2, h3, h4⟩ := h
    refine ⟨new, h1, h2, h3, fun hex => ?_, fun he => h0 (by simpa using he), by simp⟩
    rcases h4 hex with rfl | rfl <;> simp

/-- C12: a call to `solve` that starts after the interrupt makes at most one oracle call and does not return `Done`. If it
makes one, it ends because of the interrupt or an error of the logger. -/
theorem interrupt_sticky (alg : Alg) (hst : Sticky env.flag) (hf : env.flag s.io.tick = true) (fuel : Nat) :
    let r := alg.solve fuel limits env s
    r.1 ≠ .ok () ∧ r.2.io.calls.length ≤ s.io.calls.length + 1 ∧
      (s.io.calls.length < r.2.io.calls.length → r.1 = .error (.terminated .interrupted) ∨ r.1 = .error .error) := by
  obtain ⟨new, h1, h2, h3, h4, -, h5⟩ := interrupt_prompt (env := env) (s := s) (limits := limits) alg hst fuel
  have hfl : ∀ t ∈ new, env.flag (t + 1) = true := fun t ht => hst _ _ (by have := h2 t ht; omega) hf
  have hlen : new.length ≤ 1 := by
    rcases new with _ | ⟨a, _ | ⟨b, l⟩⟩
    · simp
    · simp
    · have := h3 a (by simp)
      rw [hfl a (by simp)] at this
      simp at this
  refine ⟨fun hok => ?_, by rw [h1, List.length_append]; omega, fun hlt => ?_⟩
  · have hne := h5 hok
    obtain ⟨t, ht⟩ := List.exists_mem_of_ne_nil _ hne
    rcases h4 ⟨t, ht, hfl t ht⟩ with h | h <;> rw [hok] at h <;> simp at h
  · rw [h1, List.length_append] at hlt
    obtain ⟨t, ht⟩ := List.exists_mem_of_length_pos (l := new) (by omega)
    exact h4 ⟨t, ht, hfl t ht⟩

/-! ## C13 -/

theorem stats_run (alg : Alg) (fuel : Nat) :
    wp env (alg.solve fuel limits)
      (fun _ s' => StatRun s.front { s.io.stats with nSolveCalls := s.io.stats.nSolveCalls + 1 } 0 s')
      (fun e s' => e ≠ .panic → StatEnd s.front { s.io.stats with nSolveCalls := s.io.stats.nSolveCalls + 1 } s') s := by
  refine wp_mono ((statLogic env s.front { s.io.stats with nSolveCalls := s.io.stats.nSolveCalls + 1 }).solve (d := 0) alg
    fuel limits ?_) (fun _ _ h => ?_) (fun _ _ h => h)
  · exact ⟨[], by simp [startSolving, modifyS], rfl, rfl, rfl⟩
  · rcases h with h | ⟨_, h⟩ <;> exact h

/-- Number of solutions listed in a front. -/
def Spec.listed (f : ParetoFront Assignment) : Nat := (f.map fun p => p.sols.length).sum

/-- C13 for one call that does not panic: the points added to the front are as many as were counted, the solutions they
list are at most as many as were counted, and exactly as many if `Done` is returned, and the call is counted. -/
theorem stats_agree (alg : Alg) (fuel : Nat) :
    let r := alg.solve fuel limits env s
    r.1 ≠ .error .panic →
    ∃ new, r.2.front = s.front ++ new ∧ counted .points s r.2 = new.length ∧
      listed new ≤ counted .solutions s r.2 ∧ (r.1 = .ok () → counted .solutions s r.2 = listed new) ∧
      r.2.io.stats.nSolveCalls = s.io.stats.nSolveCalls + 1 := by
  intro r hp
  have h := stats_run (env := env) (s := s) (limits := limits) alg fuel
  unfold wp at h
  generalize hr' : alg.solve fuel limits env s = r' at h
  have hrr : r = r' := hr'
  rw [hrr] at hp ⊢
  obtain ⟨r1, r2⟩ := r'
  cases r1 with
  | ok u =>
    obtain ⟨new, h1, h2, h3, h4⟩ := h
    refine ⟨new, h1, ?_, ?_, fun _ => ?_, h4⟩ <;> simp only [counted, Limited.count] at * <;>
      first | (rw [h2]; omega) | (rw [h3]; show listed new ≤ _; unfold nListed listed; omega) | skip
    rw [h3]; unfold nListed listed; omega
  | error e =>
    obtain ⟨new, h1, h2, h3, h4⟩ := h (by rintro rfl; exact hp rfl)
    refine ⟨new, h1, ?_, ?_, by simp, h4⟩ <;> simp only [counted, Limited.count] at *
    · rw [h2]; omega
    · unfold nListed at h3; unfold listed; omega

/-- C13 for a freshly built solver: after any sequence of calls that do not panic, the counters agree with the front. -/
theorem stats_agree_history {inst : Instance} {bcg : Assignment → Clause} {opts : KernelOptions} (alg : Alg)
    (h0 : Started alg inst bcg opts s) (calls : List Call)
    (hp : ∀ r ∈ (alg.calls env calls s).1, r ≠ .error .panic) :
    let s' := (alg.calls env calls s).2
    s'.io.stats.nNonDominated = s'.front.length ∧ listed s'.front ≤ s'.io.stats.nSolutions ∧
    ((∀ r ∈ (alg.calls env calls s).1, r = .ok ()) → s'.io.stats.nSolutions = listed s'.front) ∧
    s'.io.stats.nSolveCalls = (alg.calls env calls s).1.length := by
  have key : ∀ (calls : List Call) (s : Slv P C) (n : Nat), s.io.stats.nNonDominated = s.front.length →
      listed s.front ≤ s.io.stats.nSolutions → s.io.stats.nSolveCalls = n →
      (∀ r ∈ (alg.calls env calls s).1, r ≠ .error .panic) →
      let s' := (alg.calls env calls s).2
      s'.io.stats.nNonDominated = s'.front.length ∧ listed s'.front ≤ s'.io.stats.nSolutions ∧
      (s.io.stats.nSolutions = listed s.front → (∀ r ∈ (alg.calls env calls s).1, r = .ok ()) →
        s'.io.stats.nSolutions = listed s'.front) ∧
      s'.io.stats.nSolveCalls = n + (alg.calls env calls s).1.length := by
    intro calls
    induction calls with
    | nil => exact fun s n h1 h2 h3 _ => ⟨h1, h2, fun h _ => h, h3⟩
    | cons c cs ih =>
      intro s n h1 h2 h3 hp
      cases c with
      | attachLogger => exact ih s.attachLogger n h1 h2 h3 hp
      | detachLogger => exact ih s.detachLogger n h1 h2 h3 hp
      | solve fuel limits =>
        simp only [Alg.calls, List.mem_cons, forall_eq_or_imp, List.length_cons] at hp ⊢
        obtain ⟨new, a1, a2, a3, a4, a5⟩ := stats_agree (env := env) (s := s) (limits := limits) alg fuel hp.1
        have hmono : s.io.stats.nNonDominated ≤ (alg.solve fuel limits env s).2.io.stats.nNonDominated ∧
            s.io.stats.nSolutions ≤ (alg.solve fuel limits env s).2.io.stats.nSolutions := by
          have h := stats_run (env := env) (s := s) (limits := limits) alg fuel
          unfold wp at h
          generalize hr' : alg.solve fuel limits env s = r' at h hp ⊢
          obtain ⟨r1, r2⟩ := r'
          cases r1 with
          | ok u => obtain ⟨new, b1, b2, b3, b4⟩ := h; simp only at *; omega
          | error e =>
            obtain ⟨new, b1, b2, b3, b4⟩ := h (by rintro rfl; exact hp.1 rfl)
            simp only at *; omega
        have hlist : listed (s.front ++ new) = listed s.front + listed new := by simp [listed]
        simp only [counted, Limited.count] at a2 a3 a4
        obtain ⟨c1, c2, c3, c4⟩ := ih (alg.solve fuel limits env s).2 (n + 1) (by rw [a1, List.length_append]; omega)
          (by rw [a1, hlist]; omega) (by omega) hp.2
        exact ⟨c1, c2, fun g1 g2 => c3 (by rw [a1, hlist]; have := a4 g2.1; omega) g2.2, by omega⟩
  have hst : s.io.stats.nNonDominated = 0 ∧ s.front = [] ∧ s.io.stats.nSolutions = 0 ∧ s.io.stats.nSolveCalls = 0 := by
    obtain ⟨s0, hn, hs⟩ := h0
    have : s0.io.stats.nNonDominated = 0 ∧ s0.front = [] ∧ s0.io.stats.nSolutions = 0 ∧ s0.io.stats.nSolveCalls = 0 := by
      cases alg <;> simp only [Alg.new, Slv.new, Kern.new, Slv.initBos] at hn
      all_goals
        revert hn
        cases inst.vm.maxVar <;> simp [Slv.init]
      · rintro rfl; simp
      · rintro rfl; simp
      · rintro _ rfl; simp
    rcases hs with rfl | rfl
    · exact this
    · exact this
  obtain ⟨z1, z2, z3, z4⟩ := hst
  obtain ⟨c1, c2, c3, c4⟩ := key calls s 0 (by rw [z1, z2]; rfl) (by rw [z2, z3]; simp [listed]) z4 hp
  exact ⟨c1, c2, fun h => c3 (by rw [z2, z3]; simp [listed]) h, by omega⟩

/-- C13: whatever calls are made and however they end, the number of objectives, of objectives that are not constant and
of clauses in the statistics are those of the instance. -/
theorem stats_instance {inst : Instance} {bcg : Assignment → Clause} {opts : KernelOptions} (alg : Alg)
    (h0 : Started alg inst bcg opts s) (calls : List Call) :
    let st := (alg.calls env calls s).2.io.stats
    st.nObjs = inst.objs.length ∧ st.nRealObjs = (inst.objs.filter fun o => !o.isConstant).length ∧
    st.nOrigClauses = inst.clauses.length := by
  have hcount : ∀ (os : List Objective) (k : Nat), os.foldl (fun cnt o => if o.isConstant then cnt else cnt + 1) k =
      k + (os.filter fun o => !o.isConstant).length := by
    intro os
    induction os with
    | nil => simp
    | cons o os ih =>
      intro k
      rw [List.foldl_cons, ih, List.filter_cons]
      cases o.isConstant <;> simp <;> omega
  have key : ∀ (calls : List Call) (s : Slv P C) (x : Nat × Nat × Nat), s.io.stats.ofInstance = x →
      (alg.calls env calls s).2.io.stats.ofInstance = x := by
    intro calls
    induction calls with
    | nil => exact fun s x h => h
    | cons c cs ih =>
      intro s x h
      cases c with
      | attachLogger => exact ih s.attachLogger x h
      | detachLogger => exact ih s.detachLogger x h
      | solve fuel limits =>
        simp only [Alg.calls]
        refine ih _ x ?_
        have h := (fixedLogic env x).solve (d := 0) alg fuel limits (s := s) h
        unfold wp at h
        split at h
        · next hr => rw [hr]; exact h.elim id (·.2)
        · next hr => rw [hr]; exact h
  have hst : s.io.stats.ofInstance = (inst.objs.length, (inst.objs.filter fun o => !o.isConstant).length,
      inst.clauses.length) := by
    obtain ⟨s0, hn, hs⟩ := h0
    have : s0.io.stats.ofInstance = (inst.objs.length, (inst.objs.filter fun o => !o.isConstant).length,
        inst.clauses.length) := by
      cases alg <;> simp only [Alg.new, Slv.new, Kern.new, Slv.initBos] at hn
      all_goals
        revert hn
        cases inst.vm.maxVar <;> simp [Slv.init]
      · rintro rfl; simp [Stats.ofInstance, hcount]
      · rintro rfl; simp [Stats.ofInstance, hcount]
      · rintro _ rfl; simp [Stats.ofInstance, hcount]
    rcases hs with rfl | rfl
    · exact this
    · exact this
  have h := key calls s _ hst
  simp only [Stats.ofInstance, Prod.mk.injEq] at h
  exact h

/-- A solver for an instance with three objectives, one of which is constant. -/
example : (Alg.pMinimal.new (P := RefEnc 1) (C := RefEnc 0)
    { Example.inst with objs := .constant 3 0 0 :: Example.inst.objs } defaultBlockingClause {}).any fun s =>
    s.io.stats.nObjs == 3 && s.io.stats.nRealObjs == 2 && s.io.stats.nOrigClauses == 3 := by decide +kernel

/-- Number of messages of a kind. -/
def Spec.messages (k : Limited) (es : List LogEvent) : Nat := (es.filter k.event).length

/-- C13: with a logger, points, solutions, candidates and oracle calls are counted as often as they are logged; if the
logger fails, the counter may be ahead by one. Routine ends never come without a start. -/
theorem log_agrees (alg : Alg) (fuel : Nat) {l0 : List LogEvent} (hl : s.io.logger = some l0) :
    let r := alg.solve fuel limits env s
    ∃ es, r.2.io.logger = some (l0 ++ es) ∧ (∃ d, Opened d es) ∧ ∀ k,
      messages k es ≤ counted k s r.2 ∧ counted k s r.2 ≤ messages k es + 1 ∧
      ((∀ t, env.logOk t = true) ∨ r.1 = .ok () → counted k s r.2 = messages k es) := by
  have h := log_run (env := env) (limits := limits) alg fuel hl
  unfold wp at h
  generalize hr' : alg.solve fuel limits env s = r at h
  obtain ⟨r1, r2⟩ := r
  have hm : ∀ k es, messages k es = nLogged k es := fun _ _ => rfl
  cases r1 with
  | ok u =>
    obtain ⟨d, es, h1, h2, h3⟩ : ∃ d, LogRun l0 s.io.stats d r2 := by
      rcases h with h | ⟨_, h⟩
      · exact ⟨_, h⟩
      · exact ⟨_, h⟩
    refine ⟨es, h1, ⟨d, h3⟩, fun k => ?_⟩
    have := h2 k
    simp only [counted, hm]
    omega
  | error e =>
    obtain ⟨es, h1, h2, h3, -⟩ := h
    refine ⟨es, h1, h3, fun k => ?_⟩
    obtain ⟨a1, a2, a3⟩ := h2 k
    simp only [counted, hm]
    refine ⟨by omega, by omega, fun hor => ?_⟩
    rcases hor with hor | hor
    · have := a3 hor; omega
    · simp at hor

/-! ## C27 -/

/-- C27 for P-minimal and LowerBounding: in a call that returns `Done`, starts and ends of routines are balanced. -/
theorem routines_nested (alg : Alg) (halg : alg ≠ .biOptSat) (fuel : Nat) {l0 : List LogEvent}
    (hl : s.io.logger = some l0) (hdone : (alg.solve fuel limits env s).1 = .ok ()) :
    ∃ es, (alg.solve fuel limits env s).2.io.logger = some (l0 ++ es) ∧ Balanced es := by
  have h := log_run (env := env) (limits := limits) alg fuel hl
  unfold wp at h
  generalize hr' : alg.solve fuel limits env s = r at h hdone
  obtain ⟨r1, r2⟩ := r
  simp only at hdone
  subst hdone
  rcases h with ⟨es, h1, -, h3⟩ | ⟨h, -⟩
  · cases h3 with
    | zero hb => exact ⟨es, h1, hb⟩
  · exact absurd h halg

theorem front_solveAssumps (as : List Lit) :
    wp env (solveAssumps as) (fun _ s' => s'.front = s.front) (fun _ _ => True) s :=
  wpio_solveAssumps (fun _ _ => trivial) (fun _ _ => trivial) fun s' r hs =>
    wpio_charge (k := .oracleCalls) (ev := .oracleCall r) (fun s'' hc _ _ => by rw [hc.front, hs.front])
      (fun _ _ _ _ _ => trivial) (fun _ _ _ _ => trivial) (fun _ _ _ _ _ => trivial)

theorem wp_conj {α : Type} {c : M P C α} {Q1 Q2 : α → Slv P C → Prop} {E : Stop → Slv P C → Prop}
    (h1 : wp env c Q1 E s) (h2 : wp env c Q2 (fun _ _ => True) s) : wp env c (fun a s => Q1 a s ∧ Q2 a s) E s := by
  unfold wp at *
  split at h1 <;> simp_all

/-- If BiOptSat adds a point, its routine ends. -/
theorem bos_log (fuel : Nat) {l0 : List LogEvent} (hl : s.io.logger = some l0) :
    wp env (Alg.biOptSat.solve fuel limits) (fun _ s' => LogRun l0 s.io.stats 0 s' ∨ s'.front = s.front)
      (fun _ _ => True) s := by
  have L := logLogic (P := P) (C := C) env l0 s.io.stats
  have mono : ∀ {α : Type} {c : M P C α} {Q : α → Slv P C → Prop} {s' : Slv P C},
      wp env c Q (LogEnd env l0 s.io.stats) s' → wp env c Q (fun _ _ => True) s' :=
    fun h => wp_mono h (fun _ _ h => h) (fun _ _ _ => trivial)
  show wp env (do startSolving limits; bosMain fuel) _ _ s
  rw [wp_bind]
  have h0 : LogRun l0 s.io.stats 0 (startSolving limits env s).2 :=
    ⟨[], by show s.io.logger = _; rw [hl]; simp, fun k => by cases k <;> rfl, .zero .nil⟩
  have f0 : (startSolving limits env s).2.front = s.front := rfl
  show wp env (bosMain fuel) _ _ (startSolving limits env s).2
  generalize (startSolving limits env s).2 = s0 at h0 f0
  unfold bosMain bioptsat
  simp only [Option.getD]
  rw [wp_bind]
  refine wp_mono (wp_conj (mono (L.start (p := 0) (c := false) "bioptsat" s0 h0))
    (Q2 := fun _ s' => s'.front = s0.front) (wpio_logEvent (fun _ a1 _ _ _ _ _ => a1) (fun _ _ _ _ _ _ _ _ => trivial)))
    ?_ (fun _ _ h => h)
  rintro - s1 ⟨h1, f1⟩
  rw [wp_bind, wp_getS, wp_bind, wp_dbg_iff]
  split
  · trivial
  unfold encAt
  rw [wp_bind, wp_bind, wp_getS]
  rcases s1.encs[0]? with _ | e0
  · trivial
  rw [wp_unwrap_some, wp_bind, wp_bind, wp_getS]
  rcases s1.encs[1]? with _ | e1
  · trivial
  rw [wp_unwrap_some, wp_bind]
  refine wp_mono (wp_conj (mono (L.call (p := 0) (c := false) (d := 0) [] s1 h1)) (front_solveAssumps (s := s1) []))
    ?_ (fun _ _ h => h)
  rintro res s2 ⟨h2, f2⟩
  split
  · exact Or.inr (by rw [f2, f1, f0])
  · refine mono (wp_mono ?_ (fun _ _ h => Or.inl h) (fun _ _ h => h))
    refine Tr.bind (A := fun s' => LogRun l0 s.io.stats 1 s') ((L.q (d := 1) (p := 0) (c := true)).oracleSolution) (fun sol => ?_) s2 h2
    refine ((L.q (p := 0) (c := true) (d := 1)).getCostTight (L.heur (p := 0) (c := true)) _ _ _).bind fun _ => ?_
    exact Tr.loop (I := fun _ s' => LogRun l0 s.io.stats 1 s') fuel _
      (fun st => L.bosBody (c := true) (d := 0) fuel 0 1 [] _ _ st) fun _ _ h => h.end (by simp)

/-- C27 for BiOptSat on instances with a solution. Missing: instances without solution, for which the claim is false as
the counterexample below shows. -/
theorem routines_nested_bioptsat_partial [LawfulUbEnc P] [LawfulUbEnc C] {inst : Instance} {bcg : Assignment → Clause}
    {opts : KernelOptions} (hs : Setting inst bcg opts env) (hlim : LimitsFine env limits)
    (h0 : Started .biOptSat inst bcg opts s) (hfeas : ∃ t, (problem inst).Feasible t) (fuel : Nat) {l0 : List LogEvent}
    (hl : s.io.logger = some l0) (hdone : (Alg.biOptSat.solve fuel limits env s).1 = .ok ()) :
    ∃ es, (Alg.biOptSat.solve fuel limits env s).2.io.logger = some (l0 ++ es) ∧ Balanced es := by
  have h := bos_log (env := env) (s := s) (limits := limits) fuel hl
  have hex := biOptSat_exact_front hs hlim h0 fuel hdone
  have hfr : s.front = [] := by
    obtain ⟨s0, hn, hs⟩ := h0
    have : s0.front = [] := by
      simp only [Alg.new, Kern.new, Slv.initBos] at hn
      revert hn
      cases inst.vm.maxVar <;> simp [Slv.init]
      rintro _ rfl; simp
    rcases hs with rfl | rfl
    · exact this
    · exact this
  unfold wp at h
  generalize hr' : Alg.biOptSat.solve fuel limits env s = r at h hdone hex
  obtain ⟨r1, r2⟩ := r
  simp only at hdone hex
  subst hdone
  rcases h with ⟨es, h1, -, h3⟩ | h
  · cases h3 with
    | zero hb => exact ⟨es, h1, hb⟩
  · exfalso
    rw [hfr] at h
    obtain ⟨t, ht⟩ := hfeas
    obtain ⟨t', ht', -⟩ := (inst.pb opts bcg).exists_nonDom_le t ((feasible_iff t).1 ht)
    have := (hex.exact ((problem inst).costs t')).2 ⟨t', (paretoOptimal_iff hs.unit t').2 ht', rfl⟩
    rw [h] at this
    simp at this

/-! ## Consequence for C06 -/

/-- With neither limits nor interrupts nor failures of the logger, every algorithm returns `Done`. -/
theorem solve_done [LawfulUbEnc P] [LawfulUbEnc C] (inst : Instance) : ∃ N, ∀ (alg : Alg) (bcg : Assignment → Clause)
    (opts : KernelOptions) (env : Env) (s : Slv P C) (fuel : Nat), Setting inst bcg opts env →
    Started alg inst bcg opts s → (∀ t, env.flag t = false) → (∀ t, env.logOk t = true) → N < fuel →
    (alg.solve fuel Limits.none env s).1 = .ok () := by
  obtain ⟨N, hN⟩ := solve_terminates (P := P) (C := C) inst
  refine ⟨N, fun alg bcg opts env s fuel hs h0 hflag hlog hfuel => ?_⟩
  have hpos : PosLimits Limits.none := ⟨by simp [Limits.none], by simp [Limits.none], by simp [Limits.none],
    by simp [Limits.none]⟩
  have h1 := hN alg bcg opts env Limits.none s fuel hs (fun _ => hpos) h0 hfuel
  have h2 := solve_no_panic alg hs (fun _ => hpos) h0 fuel
  have h3 := fun k => (limits_respected (env := env) (s := s) alg hpos fuel k).2 (by cases k <;> rfl)
  obtain ⟨-, -, -, -, -, h4, -⟩ := interrupt_prompt (env := env) (s := s) (limits := Limits.none) alg
    (fun t t' _ h => by rw [hflag t] at h; simp at h) fuel
  generalize (alg.solve fuel Limits.none env s).1 = r at *
  rcases r with e | u
  · exfalso
    rcases e with t | _ | _ | _
    · cases t with
      | ppLimit => exact h3 .points rfl
      | solsLimit => exact h3 .solutions rfl
      | candidatesLimit => exact h3 .candidates rfl
      | oracleCallsLimit => exact h3 .oracleCalls rfl
      | interrupted =>
        obtain ⟨t, ht⟩ := h4 rfl
        rw [hflag t] at ht
        simp at ht
    · exact h2.2 hlog rfl
    · exact h2.1 rfl
    · exact h1 rfl
  · rfl

/-! ## Examples -/

/-- The reference environment in which the flag is set from some time on. -/
def Example.interruptedAt (n : Nat) : Env := { refEnv true with flag := fun t => decide (n ≤ t) }

theorem Example.sticky (n : Nat) : Sticky (Example.interruptedAt n).flag := fun t t' h1 h2 => by
  simp only [Example.interruptedAt, decide_eq_true_eq] at *; omega

/-- A run that was terminated for the given reason. -/
def Example.endedBy' (t : Termination) : Except Stop Unit → Bool
  | .error (.terminated t') => t' == t
  | _ => false

/-- Result and final state of a run with logger. -/
def Example.final (inst : Instance) (alg : Alg) (opts : KernelOptions) (limits : Limits) (env : Env) :
    Option (Except Stop Unit × Example.Solver) :=
  (alg.new (P := RefEnc 1) (C := RefEnc 0) inst defaultBlockingClause opts).map fun s =>
    alg.solve 50 limits env s.attachLogger

/-- C11: each limit is reached by some run. -/
example : (Example.final Example.inst .pMinimal {} { candidates := some 2 } (refEnv true)).any fun r =>
    Example.endedBy' .candidatesLimit r.1 && r.2.io.stats.nCandidates == 2 := by decide +kernel
example : (Example.final Example.inst .biOptSat {} { oracleCalls := some 3 } (refEnv true)).any fun r =>
    Example.endedBy' .oracleCallsLimit r.1 && r.2.io.stats.nOracleCalls == 3 := by decide +kernel
example : (Example.final Example.inst .lowerBounding {} { pps := some 1 } (refEnv true)).any fun r =>
    Example.endedBy' .ppLimit r.1 && r.2.io.stats.nNonDominated == 1 := by decide +kernel
example : (Example.final Example.inst .lowerBounding { enumeration := .solutions none } { sols := some 2 } (refEnv true)).any
    fun r => Example.endedBy' .solsLimit r.1 && r.2.io.stats.nSolutions == 2 := by decide +kernel

/-- C12: a run that is interrupted in the middle, after three oracle calls. -/
example : (Example.final Example.inst .pMinimal {} Limits.none (Example.interruptedAt 22)).any fun r =>
    Example.endedBy' .interrupted r.1 && r.2.io.calls.length == 3 := by decide +kernel

/-- C13 and C27: a run that is `Done` and has logged something. -/
example : (Example.final Example.inst .pMinimal {} Limits.none (refEnv true)).any fun r =>
    (match r.1 with | .ok () => true | _ => false) && r.2.io.stats.nOracleCalls == 5 &&
    (r.2.io.logger.getD []).length == 31 := by decide +kernel

/-- An instance without solution. -/
def Example.unsat : Instance := { Example.inst with clauses := [[]] }

/-- C27 is violated by BiOptSat for instances without solution: the routine that is started never ends, although `Done`
is returned. -/
theorem routines_nested_counterexample : ∃ s : Example.Solver,
    Started .biOptSat Example.unsat defaultBlockingClause {} s ∧ s.io.logger = some [] ∧
    let r := Alg.biOptSat.solve 50 Limits.none (refEnv true) s
    r.1 = .ok () ∧ ∃ es, r.2.io.logger = some es ∧ ¬ Balanced es := by
  have h : ∃ s0 : Example.Solver, Alg.biOptSat.new Example.unsat defaultBlockingClause {} = some s0 ∧
      (Alg.biOptSat.solve 50 Limits.none (refEnv true) s0.attachLogger).1 = .ok () ∧
      (Alg.biOptSat.solve 50 Limits.none (refEnv true) s0.attachLogger).2.io.logger =
        some [.routineStart "bioptsat", .routineStart "oracle call", .routineEnd, .oracleCall .unsat] := by
    have hd : (Example.final Example.unsat .biOptSat {} Limits.none (refEnv true)).any (fun r =>
        (match r.1 with | .ok () => true | _ => false) && r.2.io.logger ==
        some [.routineStart "bioptsat", .routineStart "oracle call", .routineEnd, .oracleCall .unsat]) = true := by
      decide +kernel
    unfold Example.final at hd
    cases hn : Alg.biOptSat.new (P := RefEnc 1) (C := RefEnc 0) Example.unsat defaultBlockingClause {} with
    | none => rw [hn] at hd; simp at hd
    | some s0 =>
      rw [hn] at hd
      simp only [Option.map_some, Option.any_some, Bool.and_eq_true, beq_iff_eq] at hd
      refine ⟨s0, rfl, ?_, hd.2⟩
      revert hd
      generalize (Alg.biOptSat.solve 50 Limits.none (refEnv true) s0.attachLogger).1 = r
      rcases r with e | ⟨⟩ <;> simp
  obtain ⟨s0, h1, h2, h3⟩ := h
  refine ⟨s0.attachLogger, ⟨s0, h1, Or.inr rfl⟩, rfl, h2, _, h3, fun hb => ?_⟩
  have key : ∀ es, Balanced es → (es.filter fun e => e matches .routineStart _).length =
      (es.filter fun e => e matches .routineEnd).length := by
    intro es hb
    induction hb with
    | nil => rfl
    | other e h1 h2 =>
      cases e <;> first | rfl | exact absurd rfl (h1 _) | exact absurd rfl h2
    | wrap x _ ih => simp [ih]
    | append _ _ ih1 ih2 => simp [ih1, ih2]
  exact absurd (key _ hb) (by decide)

/-- C11 for a limit of zero, which the interface admits: the run panics in a debug build, and in a release build the limit
has no effect. -/
theorem limit_zero_counterexample :
    (Example.final Example.inst .pMinimal {} { candidates := some 0 } (refEnv true)).any
      (fun r => match r.1 with | .error .panic => true | _ => false) = true ∧
    (Example.final Example.inst .pMinimal {} { candidates := some 0 } (refEnv false)).any
      (fun r => (match r.1 with | .ok () => true | _ => false) && r.2.io.stats.nCandidates == 2) = true := by
  constructor <;> decide +kernel

end Scuttle
