import Verif.Proof.IoStats

/-!
# The log as an invariant
-/

set_option linter.unusedSectionVars false

namespace Scuttle

open Spec

variable {P C α β : Type} {env : Env} {s : Slv P C}

theorem Spec.Opened.append {d : Nat} {es fs : List LogEvent} (h : Opened d es) (h2 : Balanced fs) : Opened d (es ++ fs) := by
  cases h with
  | zero h => exact .zero (h.append h2)
  | succ x h1 h3 =>
    rw [List.append_assoc, List.cons_append]
    exact .succ x h1 (h3.append h2)

theorem Spec.Opened.start {d : Nat} {es : List LogEvent} (h : Opened d es) (x : String) :
    Opened (d + 1) (es ++ [.routineStart x]) := .succ x h .nil

theorem Spec.Opened.finish {d : Nat} {es : List LogEvent} (h : Opened (d + 1) es) : Opened d (es ++ [.routineEnd]) := by
  cases h with
  | succ x h1 h2 =>
    rw [List.append_assoc]
    exact h1.append (.wrap x h2)

/-- Number of messages that report one of the limited things. -/
def nLogged (k : Limited) (es : List LogEvent) : Nat := (es.filter k.event).length

theorem nLogged_append (k : Limited) (a b : List LogEvent) : nLogged k (a ++ b) = nLogged k a + nLogged k b := by
  simp [nLogged]

/-- The log while the call goes on. -/
def LogRun (l0 : List LogEvent) (st0 : Stats) (d : Nat) (s : Slv P C) : Prop :=
  ∃ es, s.io.logger = some (l0 ++ es) ∧ (∀ k : Limited, k.count s.io.stats = k.count st0 + nLogged k es) ∧ Opened d es

/-- The log when the call stops early. -/
def LogEnd (env : Env) (l0 : List LogEvent) (st0 : Stats) (e : Stop) (s : Slv P C) : Prop :=
  ∃ es, s.io.logger = some (l0 ++ es) ∧
    (∀ k : Limited, k.count st0 + nLogged k es ≤ k.count s.io.stats ∧
      k.count s.io.stats ≤ k.count st0 + nLogged k es + 1 ∧
      ((∀ t, env.logOk t = true) → k.count s.io.stats = k.count st0 + nLogged k es)) ∧
    (∃ d, Opened d es) ∧ ∀ k : Limited, e = .terminated k.reason → EndsWith k es

variable {l0 : List LogEvent} {st0 : Stats} {d : Nat}

theorem LogRun.end {e : Stop} (h : LogRun l0 st0 d s) (he : ∀ k : Limited, e ≠ .terminated k.reason) :
    LogEnd env l0 st0 e s := by
  obtain ⟨es, h1, h2, h3⟩ := h
  refine ⟨es, h1, fun k => ?_, ⟨d, h3⟩, fun k hk => absurd hk (he k)⟩
  have := h2 k
  exact ⟨by omega, by omega, fun _ => this⟩

theorem LogRun.congr {s' : Slv P C} (h : LogRun l0 st0 d s) (h1 : s'.io.logger = s.io.logger)
    (h2 : s'.io.stats = s.io.stats) : LogRun l0 st0 d s' := by
  unfold LogRun at *; rw [h1, h2]; exact h

/-- One more message that is not counted. -/
theorem LogRun.logged {s' : Slv P C} {ev : LogEvent} {d' : Nat} (h : LogRun l0 st0 d s) (h1 : Logged ev s s')
    (h2 : s'.io.stats = s.io.stats) (hev : ∀ k : Limited, k.event ev = false)
    (hd : ∀ es, Opened d es → Opened d' (es ++ [ev])) : LogRun l0 st0 d' s' := by
  obtain ⟨es, a1, a2, a3⟩ := h
  refine ⟨es ++ [ev], ?_, fun k => ?_, hd es a3⟩
  · rw [h1, a1]; simp
  · rw [h2, a2 k, nLogged_append]; simp [nLogged, hev k]

theorem LogRun.event {ev : LogEvent} {d' : Nat} (h : LogRun l0 st0 d s) (hev : ∀ k : Limited, k.event ev = false)
    (hd : ∀ es, Opened d es → Opened d' (es ++ [ev])) :
    wp env (logEvent ev) (fun _ => LogRun l0 st0 d') (LogEnd env l0 st0) s :=
  wpio_logEvent (fun s' _ _ _ a4 _ a6 => h.logged a6 a4 hev hd)
    (fun s' _ _ _ a4 _ a6 _ => (h.congr a6 a4).end (by simp))

/-- One more message that is counted. -/
theorem LogRun.charged {s' : Slv P C} {ev : LogEvent} {k : Limited} (h : LogRun l0 st0 d s) (hc : Charged k s s')
    (h1 : Logged ev s s') (hev : ∀ k' : Limited, k'.event ev = decide (k' = k)) :
    ∃ es, s'.io.logger = some (l0 ++ (es ++ [ev])) ∧
      (∀ k' : Limited, k'.count s'.io.stats = k'.count st0 + nLogged k' (es ++ [ev])) ∧ Opened d (es ++ [ev]) := by
  obtain ⟨es, a1, a2, a3⟩ := h
  refine ⟨es, ?_, fun k' => ?_, a3.append (.other ev ?_ ?_)⟩
  · rw [h1, a1]; simp
  · rw [nLogged_append]
    by_cases hk : k' = k
    · subst hk
      rw [hc.count, a2 k']
      simp [nLogged, hev k']; omega
    · rw [(hc.others k' hk).1, a2 k']
      simp [nLogged, hev k', hk]
  · rintro x rfl
    have := hev k
    simp at this
    cases k <;> simp [Limited.event] at this
  · rintro rfl
    have := hev k
    simp at this
    cases k <;> simp [Limited.event] at this

theorem LogRun.failed {s' : Slv P C} {k : Limited} {e : Stop} (h : LogRun l0 st0 d s) (hc : Charged k s s')
    (h1 : s'.io.logger = s.io.logger) (hf : ∃ t, env.logOk t = false) (he : ∀ k : Limited, e ≠ .terminated k.reason) :
    LogEnd env l0 st0 e s' := by
  obtain ⟨es, a1, a2, a3⟩ := h
  refine ⟨es, by rw [h1, a1], fun k' => ?_, ⟨d, a3⟩, fun k hk => absurd hk (he k)⟩
  have := a2 k'
  refine ⟨?_, ?_, fun hok => ?_⟩
  · by_cases hk : k' = k
    · subst hk; rw [hc.count]; omega
    · rw [(hc.others k' hk).1]; omega
  · by_cases hk : k' = k
    · subst hk; rw [hc.count]; omega
    · rw [(hc.others k' hk).1]; omega
  · obtain ⟨t, ht⟩ := hf
    rw [hok t] at ht
    simp at ht

theorem LogRun.charge {k : Limited} {ev : LogEvent} (h : LogRun l0 st0 d s)
    (hev : ∀ k' : Limited, k'.event ev = decide (k' = k)) (hk : k = .candidates ∨ k = .oracleCalls) :
    wp env (Scuttle.charge k ev) (fun _ => LogRun l0 st0 d) (LogEnd env l0 st0) s := by
  refine wpio_charge (fun s' hc hl _ => ?_) (fun s' hc hl _ hf => h.failed hc hl hf (by simp)) (fun s' hc hl _ => ?_)
    (fun s' hc hl _ _ => ?_)
  · obtain ⟨es, b1, b2, b3⟩ := h.charged hc hl hev
    exact ⟨_, b1, b2, b3⟩
  · obtain ⟨es, b1, b2, b3⟩ := h.charged hc hl hev
    refine ⟨_, b1, fun k' => ?_, ⟨d, b3⟩, fun k' hk' => ?_⟩
    · have := b2 k'
      exact ⟨by omega, by omega, fun _ => this⟩
    · injection hk' with hk'
      obtain rfl := Limited.reason_inj hk'
      refine ⟨es, ev, by rw [hev k]; simp, ?_⟩
      rcases hk with rfl | rfl <;> rfl
  · obtain ⟨es, b1, b2, b3⟩ := h.charged hc hl hev
    exact LogRun.end (d := d) ⟨_, b1, b2, b3⟩ (by simp)

/-- The log as an invariant. -/
theorem logLogic (env : Env) (l0 : List LogEvent) (st0 : Stats) :
    IoLogic (P := P) (C := C) env (fun d _ _ s => LogRun l0 st0 d s) (LogEnd env l0 st0) where
  frame := fun h _ h' => h'.congr (by rw [h]) (by rw [h])
  called := fun h => h
  halt := fun e he h => h.end (by rcases he with rfl | rfl | rfl <;> simp)
  start := fun x s h => h.event (fun k => by cases k <;> rfl) fun _ h => h.start x
  finish := fun s h => h.event (fun k => by cases k <;> rfl) fun _ h => h.finish
  fence := fun x s h => h.event (fun k => by cases k <;> rfl) fun _ h => h.append (.other _ (by simp) (by simp))
  heur := fun i a b s h => h.event (fun k => by cases k <;> rfl) fun _ h => h.append (.other _ (by simp) (by simp))
  check := fun s h => wpio_check fun s' hs' => by
    subst hs'
    exact ⟨fun _ => h.congr rfl rfl, fun _ => LogRun.end (h.congr rfl rfl) (by intro k; cases k <;> simp [Limited.reason])⟩
  cand := fun costs ph s h => by
    unfold logCandidate
    rw [wp_bind, wp_getS, wp_bind, wp_dbg_iff]
    split
    · exact h.end (by simp)
    · exact h.charge (k := .candidates) (ev := .candidate costs ph) (fun k => by cases k <;> rfl) (Or.inl rfl)
  call := fun {d p c} a s h => by
    unfold solveAssumps
    rw [wp_bind]
    refine wp_mono (h.event (d' := d + 2) (fun k => by cases k <;> rfl) fun _ h => h.start _) ?_ (fun _ _ h => h)
    intro _ s1 h1
    rw [wp_bind]
    refine wpio_oracleSolve fun r s2 _ b2 => ?_
    have h2 : LogRun l0 st0 (d + 2) s2 := h1.congr (by rw [b2]) (by rw [b2])
    rw [wp_bind]
    refine wp_mono (h2.event (d' := d + 1) (fun k => by cases k <;> rfl) fun _ h => h.finish) ?_ (fun _ _ h => h)
    intro _ s3 h3
    rw [wp_bind]
    refine wpio_check fun s4 hs4 => ?_
    have h4 : LogRun l0 st0 (d + 1) s4 := by subst hs4; exact h3.congr rfl rfl
    refine ⟨fun _ => ?_, fun _ => h4.end (by intro k; cases k <;> simp [Limited.reason])⟩
    rw [wp_bind, logOracleCall_eq]
    exact h4.charge (fun k => by cases k <;> rfl) (Or.inr rfl)
  sol := fun {d p c} nd _ s h => by
    have hev : ∀ k' : Limited, k'.event .solution = decide (k' = .solutions) := fun k => by cases k <;> rfl
    have hev2 : ∀ k' : Limited, k'.event (.nonDominated nd) = decide (k' = .points) := fun k => by cases k <;> rfl
    refine wp_attempt ?_
    rw [logSolution_eq]
    refine wpio_charge (fun s1 hc hl _ => ?_) (fun s1 hc hl _ hf => ?_) (fun s1 hc hl _ => ?_) (fun s1 hc hl _ _ => ?_)
    · obtain ⟨es, b1, b2, b3⟩ := h.charged hc hl hev
      exact ⟨_, b1, b2, b3⟩
    · show wp env _ _ _ s1
      obtain ⟨es, b1, b2, b4⟩ := h
      have hnof : ¬ ∀ t, env.logOk t = true := fun hok => by
        obtain ⟨t, ht⟩ := hf
        rw [hok t] at ht
        simp at ht
      have hs1 : ∀ k' : Limited, k'.count s1.io.stats = k'.count st0 + nLogged k' es + if k' = .solutions then 1 else 0 := by
        intro k'
        by_cases hk : k' = .solutions
        · subst hk; rw [hc.count, b2]; simp
        · rw [(hc.others k' hk).1, b2]; simp [hk]
      rw [wp_bind]
      refine wp_attempt ?_
      rw [logNonDominated_eq]
      have hcnt : ∀ s2 : Slv P C, Charged .points s1 s2 → ∀ k' : Limited,
          k'.count st0 + nLogged k' (es ++ [.nonDominated nd]) ≤ k'.count s2.io.stats ∧
          k'.count s2.io.stats ≤ k'.count st0 + nLogged k' (es ++ [.nonDominated nd]) + 1 ∧
          ((∀ t, env.logOk t = true) → k'.count s2.io.stats = k'.count st0 + nLogged k' (es ++ [.nonDominated nd])) := by
        intro s2 hc2 k'
        have e1 : nLogged k' (es ++ [.nonDominated nd]) = nLogged k' es + if k' = .points then 1 else 0 := by
          rw [nLogged_append]
          congr 1
          cases k' <;> rfl
        refine ⟨?_, ?_, fun hok => absurd hok hnof⟩
        · by_cases hk : k' = .points
          · subst hk; rw [hc2.count, hs1, e1]; split <;> simp <;> omega
          · rw [(hc2.others k' hk).1, hs1, e1, if_neg hk]; split <;> omega
        · by_cases hk : k' = .points
          · subst hk; rw [hc2.count, hs1, e1]; simp
          · rw [(hc2.others k' hk).1, hs1, e1, if_neg hk]; split <;> omega
      have hcnt' : ∀ s2 : Slv P C, Charged .points s1 s2 → ∀ k' : Limited,
          k'.count st0 + nLogged k' es ≤ k'.count s2.io.stats ∧ k'.count s2.io.stats ≤ k'.count st0 + nLogged k' es + 1 ∧
          ((∀ t, env.logOk t = true) → k'.count s2.io.stats = k'.count st0 + nLogged k' es) := by
        intro s2 hc2 k'
        refine ⟨?_, ?_, fun hok => absurd hok hnof⟩
        · by_cases hk : k' = .points
          · subst hk; rw [hc2.count, hs1]; simp
          · rw [(hc2.others k' hk).1, hs1]; split <;> omega
        · by_cases hk : k' = .points
          · subst hk; rw [hc2.count, hs1]; simp
          · rw [(hc2.others k' hk).1, hs1]; split <;> omega
      have hop : Opened (d + 1) (es ++ [.nonDominated nd]) := b4.append (.other _ (by simp) (by simp))
      refine wpio_charge (fun s2 hc2 hl2 _ => ?_) (fun s2 hc2 hl2 _ hf => ?_) (fun s2 hc2 hl2 _ => ?_)
        (fun s2 hc2 hl2 _ _ => ?_)
      · refine ⟨es ++ [.nonDominated nd], ?_, hcnt s2 hc2, ⟨_, hop⟩, by simp⟩
        show s2.io.logger = _
        rw [hl2, hl, b1]; simp
      · refine ⟨es, ?_, hcnt' s2 hc2, ⟨_, b4⟩, by simp⟩
        show s2.io.logger = _
        rw [hl2, hl, b1]
      · refine ⟨es ++ [.nonDominated nd], ?_, hcnt s2 hc2, ⟨_, hop⟩, ?_⟩
        · show s2.io.logger = _
          rw [hl2, hl, b1]; simp
        · intro k' hk'
          injection hk' with hk'
          obtain rfl := Limited.reason_inj hk'
          exact ⟨es, _, rfl, Or.inl rfl⟩
      · refine ⟨es ++ [.nonDominated nd], ?_, hcnt s2 hc2, ⟨_, hop⟩, by simp⟩
        rw [hl2, hl, b1]; simp
    · show wp env _ _ _ s1
      obtain ⟨es, b1, b2, b3⟩ := h.charged hc hl hev
      have h1 : LogRun l0 st0 (d + 1) s1 := ⟨_, b1, b2, b3⟩
      rw [wp_bind]
      refine wp_attempt ?_
      rw [logNonDominated_eq]
      have hL : ∀ (s2 : Slv P C), Charged .points s1 s2 → Logged (.nonDominated nd) s1 s2 →
          s2.io.logger = some (l0 ++ (es ++ [.solution] ++ [.nonDominated nd])) ∧
          (∀ k' : Limited, k'.count s2.io.stats = k'.count st0 + nLogged k' (es ++ [.solution] ++ [.nonDominated nd])) ∧
          Opened (d + 1) (es ++ [.solution] ++ [.nonDominated nd]) := by
        intro s2 hc2 hl2
        refine ⟨by rw [hl2, b1]; simp, fun k' => ?_, b3.append (.other _ (by simp) (by simp))⟩
        rw [nLogged_append]
        by_cases hk : k' = .points
        · subst hk; rw [hc2.count, b2]; simp [nLogged, hev2 .points]; omega
        · rw [(hc2.others k' hk).1, b2]; simp [nLogged, hev2 k', hk]
      refine wpio_charge (fun s2 hc2 hl2 _ => ?_) (fun s2 hc2 hl2 _ hf => ?_) (fun s2 hc2 hl2 _ => ?_)
        (fun s2 hc2 hl2 _ _ => ?_)
      · obtain ⟨d1, d2, d3⟩ := hL s2 hc2 hl2
        refine ⟨_, d1, fun k' => ?_, ⟨_, d3⟩, ?_⟩
        · have h := d2 k'
          exact ⟨Nat.le_of_eq h.symm, Nat.le_succ_of_le (Nat.le_of_eq h), fun _ => h⟩
        · intro k' hk'
          injection hk' with hk'
          obtain rfl := Limited.reason_inj hk'
          exact ⟨es, .solution, rfl, .nonDominated nd, rfl, by simp⟩
      · show LogEnd env l0 st0 .error _
        have := h1.failed (e := .error) hc2 hl2 hf (by simp)
        obtain ⟨es', c1, c2, c3, c4⟩ := this
        exact ⟨es', c1, c2, c3, c4⟩
      · obtain ⟨d1, d2, d3⟩ := hL s2 hc2 hl2
        refine ⟨_, d1, fun k' => ?_, ⟨_, d3⟩, ?_⟩
        · have h := d2 k'
          exact ⟨Nat.le_of_eq h.symm, Nat.le_succ_of_le (Nat.le_of_eq h), fun _ => h⟩
        · intro k' hk'
          injection hk' with hk'
          obtain rfl := Limited.reason_inj hk'
          exact ⟨_, .nonDominated nd, rfl, Or.inl rfl⟩
      · obtain ⟨d1, d2, d3⟩ := hL s2 hc2 hl2
        exact LogRun.end (d := d + 1) ⟨_, d1, d2, d3⟩ (by simp)
    · obtain ⟨es, b1, b2, b3⟩ := h.charged hc hl hev
      exact LogRun.end (d := d + 1) ⟨_, b1, b2, b3⟩ (by simp)
  point := fun {d p c} nd _ s h => by
    have hev2 : ∀ k' : Limited, k'.event (.nonDominated nd) = decide (k' = .points) := fun k => by cases k <;> rfl
    rw [wp_bind]
    refine wp_attempt ?_
    rw [logNonDominated_eq]
    refine wpio_charge (fun s1 hc hl _ => ?_) (fun s1 hc hl _ hf => ?_) (fun s1 hc hl _ => ?_) (fun s1 hc hl _ _ => ?_)
    · obtain ⟨es, b1, b2, b3⟩ := h.charged hc hl hev2
      show wp env (do logRoutineEnd; ofExcept (Except.ok ()) : M P C Unit) _ _ _
      rw [wp_bind]
      refine wp_mono (LogRun.event (d := d + 1) (d' := d) ⟨_, b1, b2, b3⟩ (fun k => by cases k <;> rfl)
        fun _ h => h.finish) ?_ (fun _ _ h => h)
      exact fun _ _ h => h
    · show wp env (do logRoutineEnd; ofExcept (Except.error .error) : M P C Unit) _ _ _
      obtain ⟨es, a1, a2, ⟨d', a3⟩, a4⟩ := h.failed (e := .error) hc hl hf (by simp)
      rw [wp_bind]
      have hop : ∀ {s2 : Slv P C}, s2.io.stats = s1.io.stats → s2.io.logger = s1.io.logger →
          LogEnd env l0 st0 .error s2 := fun h1 h2 => ⟨es, by rw [h2, a1], by rw [h1]; exact a2, ⟨d', a3⟩, by simp⟩
      refine wpio_logEvent (fun s2 _ _ _ c4 _ c6 => ?_) (fun s2 _ _ _ c4 _ c6 _ => hop c4 c6)
      obtain ⟨es0, e1, e2, e3⟩ := h
      have e1' : s1.io.logger = some (l0 ++ es0) := by rw [hl, e1]
      have heq : es = es0 := by
        rw [a1] at e1'
        simpa using e1'
      subst heq
      refine ⟨es ++ [.routineEnd], ?_, fun k' => ?_, ⟨d, e3.finish⟩, by simp⟩
      · rw [c6]
        show Option.map _ s1.io.logger = _
        rw [a1]; simp
      · rw [c4, nLogged_append]
        have : nLogged k' [.routineEnd] = 0 := by cases k' <;> rfl
        rw [this]
        exact a2 k'
    · obtain ⟨es, b1, b2, b3⟩ := h.charged hc hl hev2
      show wp env (do logRoutineEnd; ofExcept (Except.error (.terminated .ppLimit)) : M P C Unit) _ _ _
      rw [wp_bind]
      have hr : LogRun l0 st0 (d + 1) { s1 with front := s1.front ++ [nd] } := ⟨_, b1, b2, b3⟩
      refine wpio_logEvent (fun s2 _ _ _ c4 _ c6 => ?_) (fun s2 _ _ _ c4 _ c6 _ => (hr.congr c6 c4).end (by simp))
      have h2 : s2.io.logger = some (l0 ++ (es ++ [.nonDominated nd, .routineEnd])) := by
        rw [c6]
        show Option.map _ s1.io.logger = _
        rw [b1]; simp
      refine ⟨_, h2, fun k' => ?_, ⟨d, ?_⟩, ?_⟩
      · have : nLogged k' (es ++ [.nonDominated nd, .routineEnd]) = nLogged k' (es ++ [.nonDominated nd]) := by
          rw [nLogged_append, nLogged_append]
          congr 1
          cases k' <;> rfl
        rw [this, c4]
        have h := b2 k'
        exact ⟨Nat.le_of_eq h.symm, Nat.le_succ_of_le (Nat.le_of_eq h), fun _ => h⟩
      · have := b3.finish
        simpa using this
      · intro k' hk'
        injection hk' with hk'
        obtain rfl := Limited.reason_inj (k := .points) hk'
        exact ⟨es, .nonDominated nd, rfl, Or.inr rfl⟩
    · obtain ⟨es, b1, b2, b3⟩ := h.charged hc hl hev2
      exact LogRun.end (d := d + 1) ⟨_, b1, b2, b3⟩ (by simp)

end Scuttle
