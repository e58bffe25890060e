import Verif.Proof.IoLogic
import Verif.SpecIo

/-!
# Limits, interrupts, statistics and the log as invariants
-/

set_option linter.unusedSectionVars false

namespace Scuttle

open Spec

variable {P C α β : Type} {env : Env} {s : Slv P C}

/-! ## Limits -/

/-- Counting one of the limited things, logging it and counting down the limit: the common part of the four functions. -/
def charge (k : Limited) (ev : LogEvent) : M P C Unit :=
  match k with
  | .points => do
    bumpStats fun st => { st with nNonDominated := st.nNonDominated + 1 }
    logEvent ev
    stepLimit (·.pps) (fun l ls => { ls with pps := l }) .ppLimit
  | .solutions => do
    bumpStats fun st => { st with nSolutions := st.nSolutions + 1 }
    logEvent ev
    stepLimit (·.sols) (fun l ls => { ls with sols := l }) .solsLimit
  | .candidates => do
    bumpStats fun st => { st with nCandidates := st.nCandidates + 1 }
    logEvent ev
    stepLimit (·.candidates) (fun l ls => { ls with candidates := l }) .candidatesLimit
  | .oracleCalls => do
    bumpStats fun st => { st with nOracleCalls := st.nOracleCalls + 1 }
    logEvent ev
    stepLimit (·.oracleCalls) (fun l ls => { ls with oracleCalls := l }) .oracleCallsLimit

theorem logSolution_eq : (logSolution : M P C Unit) = charge .solutions .solution := rfl
theorem logNonDominated_eq (p : NonDomPoint Assignment) :
    (logNonDominated p : M P C Unit) = charge .points (.nonDominated p) := rfl
theorem logOracleCall_eq (r : SolverResult) :
    (logOracleCall r : M P C Unit) = charge .oracleCalls (.oracleCall r) := rfl

/-- The statistics about the instance. -/
def Stats.ofInstance (st : Stats) : Nat × Nat × Nat := (st.nObjs, st.nRealObjs, st.nOrigClauses)

/-- State after counting. -/
structure Charged (k : Limited) (s s' : Slv P C) : Prop where
  front : s'.front = s.front
  calls : s'.io.calls = s.io.calls
  tick : s.io.tick ≤ s'.io.tick
  count : k.count s'.io.stats = k.count s.io.stats + 1
  others : ∀ k', k' ≠ k → k'.count s'.io.stats = k'.count s.io.stats ∧ k'.limit s'.io.lims = k'.limit s.io.lims
  solveCalls : s'.io.stats.nSolveCalls = s.io.stats.nSolveCalls
  fixed : s'.io.stats.ofInstance = s.io.stats.ofInstance

/-- The log got one more message. -/
def Logged (ev : LogEvent) (s s' : Slv P C) : Prop := s'.io.logger = s.io.logger.map (· ++ [ev])

theorem wpio_logEvent {Q : Unit → Slv P C → Prop} {E : Stop → Slv P C → Prop} {ev : LogEvent}
    (h1 : ∀ s', s'.front = s.front → s'.io.calls = s.io.calls → s.io.tick ≤ s'.io.tick → s'.io.stats = s.io.stats →
      s'.io.lims = s.io.lims → Logged ev s s' → Q () s')
    (h2 : ∀ s', s'.front = s.front → s'.io.calls = s.io.calls → s.io.tick ≤ s'.io.tick → s'.io.stats = s.io.stats →
      s'.io.lims = s.io.lims → s'.io.logger = s.io.logger → (∃ t, env.logOk t = false) → E .error s') :
    wp env (logEvent ev) Q E s := by
  unfold wp logEvent
  cases hl : s.io.logger with
  | none => exact h1 _ rfl rfl Nat.le.refl rfl rfl (by simp [Logged, hl])
  | some l =>
    simp only
    split
    · rename_i h
      split at h
      · obtain ⟨-, rfl⟩ := Prod.mk.inj h
        exact h1 _ rfl rfl (Nat.le_succ _) rfl rfl (by simp [Logged, hl])
      · simp at h
    · rename_i h
      split at h
      · simp at h
      · rename_i hn
        obtain ⟨he, rfl⟩ := Prod.mk.inj h
        injection he with he
        subst he
        exact h2 _ rfl rfl (Nat.le_succ _) rfl rfl rfl ⟨_, by simpa using hn⟩

/-- The value of an optional limit after counting down; `true` means that it is used up. -/
inductive Down (debug : Bool) : Option Nat → Option Nat → Bool → Prop
  | none : Down debug none none false
  | wrap (h : debug = false) : Down debug (some 0) (some usizeMax) false
  | last : Down debug (some 1) (some 0) true
  | more (n : Nat) : Down debug (some (n + 2)) (some (n + 1)) false

theorem wpio_stepLimit {Q : Unit → Slv P C → Prop} {E : Stop → Slv P C → Prop} {get : Limits → Option Nat}
    {set : Option Nat → Limits → Limits} {t : Termination}
    (h1 : ∀ l, Down env.debug (get s.io.lims) l false → Q () { s with io := { s.io with lims := set l s.io.lims } })
    (h2 : ∀ l, Down env.debug (get s.io.lims) l true →
      E (.terminated t) { s with io := { s.io with lims := set l s.io.lims } })
    (h3 : env.debug = true → get s.io.lims = some 0 → E .panic s) : wp env (stepLimit get set t) Q E s := by
  unfold wp stepLimit
  rcases hg : get s.io.lims with _ | _ | _ | n
  · exact h1 none (by rw [hg]; exact Down.none)
  · cases hd : env.debug
    · exact h1 (some usizeMax) (hg ▸ Down.wrap hd)
    · exact h3 hd hg
  · exact h2 (some 0) (hg ▸ Down.last)
  · exact h1 (some (n + 1)) (hg ▸ Down.more n)

theorem wpio_charge {Q : Unit → Slv P C → Prop} {E : Stop → Slv P C → Prop} {k : Limited} {ev : LogEvent}
    (h1 : ∀ s', Charged k s s' → Logged ev s s' → Down env.debug (k.limit s.io.lims) (k.limit s'.io.lims) false → Q () s')
    (h2 : ∀ s', Charged k s s' → s'.io.logger = s.io.logger → k.limit s'.io.lims = k.limit s.io.lims →
      (∃ t, env.logOk t = false) → E .error s')
    (h3 : ∀ s', Charged k s s' → Logged ev s s' → Down env.debug (k.limit s.io.lims) (k.limit s'.io.lims) true →
      E (.terminated k.reason) s')
    (h4 : ∀ s', Charged k s s' → Logged ev s s' → env.debug = true → k.limit s.io.lims = some 0 → E .panic s') :
    wp env (charge k ev) Q E s := by
  cases k <;>
  · unfold charge bumpStats
    rw [wp_bind, wp_modifyS, wp_bind]
    refine wpio_logEvent ?_ ?_
    · intro s1 a1 a2 a3 a4 a5 a6
      have a5' : s1.io.lims = s.io.lims := a5
      refine wpio_stepLimit ?_ ?_ ?_
      · intro l hl
        refine h1 _ ⟨a1, a2, a3, by simp [Limited.count, a4], ?_, by simp [a4], by simp [Stats.ofInstance, a4]⟩ a6 (by rw [a5'] at hl; exact hl)
        intro k' hk; cases k' <;> first | exact absurd rfl hk | simp [Limited.count, Limited.limit, a4, a5]
      · intro l hl
        refine h3 _ ⟨a1, a2, a3, by simp [Limited.count, a4], ?_, by simp [a4], by simp [Stats.ofInstance, a4]⟩ a6 (by rw [a5'] at hl; exact hl)
        intro k' hk; cases k' <;> first | exact absurd rfl hk | simp [Limited.count, Limited.limit, a4, a5]
      · intro hd hl
        refine h4 _ ⟨a1, a2, a3, by simp [Limited.count, a4], ?_, by simp [a4], by simp [Stats.ofInstance, a4]⟩ a6 hd (by rw [a5'] at hl; exact hl)
        intro k' hk; cases k' <;> first | exact absurd rfl hk | simp [Limited.count, Limited.limit, a4, a5]
    · intro s1 a1 a2 a3 a4 a5 a6 a7
      refine h2 _ ⟨a1, a2, a3, by simp [Limited.count, a4], ?_, by simp [a4], by simp [Stats.ofInstance, a4]⟩ a6 (by rw [a5]) a7
      intro k' hk; cases k' <;> first | exact absurd rfl hk | simp [Limited.count, Limited.limit, a4, a5]

theorem wpio_check {Q : Unit → Slv P C → Prop} {E : Stop → Slv P C → Prop}
    (h : ∀ s', s' = { s with io := { s.io with tick := s.io.tick + 1 } } →
      (env.flag s.io.tick = false → Q () s') ∧ (env.flag s.io.tick = true → E (.terminated .interrupted) s')) :
    wp env checkTermination Q E s := by
  unfold wp checkTermination
  cases hf : env.flag s.io.tick
  · simpa using (h _ rfl).1 hf
  · simpa using (h _ rfl).2 hf

theorem wpio_oracleSolve {Q : SolverResult → Slv P C → Prop} {E : Stop → Slv P C → Prop} {as : List Lit}
    (h : ∀ r s', s'.front = s.front →
      s'.io = { s.io with tick := s.io.tick + 1, calls := s.io.calls ++ [s.io.tick] } → Q r s') :
    wp env (oracleSolve as) Q E s := by
  unfold wp oracleSolve
  cases env.oracle s.io.tick s.k.conflLimited s.k.db as <;> exact h _ _ rfl rfl


/-- The part of the state that limits and statistics see. -/
structure SameIo (s s' : Slv P C) : Prop where
  front : s'.front = s.front
  stats : s'.io.stats = s.io.stats
  lims : s'.io.lims = s.io.lims

/-- Rule for `solveAssumps`. -/
theorem wpio_solveAssumps {Q : SolverResult → Slv P C → Prop} {E : Stop → Slv P C → Prop} {as : List Lit}
    (h1 : ∀ s', SameIo s s' → E .error s')
    (h2 : ∀ s', SameIo s s' → E (.terminated .interrupted) s')
    (h3 : ∀ s' r, SameIo s s' → wp env (logOracleCall r) (fun _ => Q r) E s') : wp env (solveAssumps as) Q E s := by
  unfold solveAssumps logRoutineStart logRoutineEnd
  rw [wp_bind]
  refine wpio_logEvent (fun s1 a1 _ _ a4 a5 _ => ?_) (fun s1 a1 _ _ a4 a5 _ _ => h1 s1 ⟨a1, a4, a5⟩)
  rw [wp_bind]
  refine wpio_oracleSolve fun r s2 b1 b2 => ?_
  rw [wp_bind]
  refine wpio_logEvent (fun s3 c1 _ _ c4 c5 _ => ?_) (fun s3 c1 _ _ c4 c5 _ _ => h1 s3 ⟨?_, ?_, ?_⟩)
  · rw [wp_bind]
    refine wpio_check fun s4 hs4 => ?_
    have hsame : SameIo s s4 := by
      subst hs4
      exact ⟨by show s3.front = _; rw [c1, b1, a1], by show s3.io.stats = _; rw [c4, b2, ← a4],
        by show s3.io.lims = _; rw [c5, b2, ← a5]⟩
    refine ⟨fun _ => ?_, fun _ => h2 _ hsame⟩
    rw [wp_bind]
    exact wp_mono (h3 s4 r hsame) (fun _ _ h => h) fun _ _ h => h
  · rw [c1, b1, a1]
  · rw [c4, b2, ← a4]
  · rw [c5, b2, ← a5]

/-- While the call goes on: a limit has not been reached and what is left of it is known. -/
def LimRun (limits : Limits) (st0 : Stats) (k : Limited) (s : Slv P C) : Prop :=
  k.count st0 ≤ k.count s.io.stats ∧
  match k.limit limits with
  | none => k.limit s.io.lims = none
  | some n => k.count s.io.stats - k.count st0 < n ∧ k.limit s.io.lims = some (n - (k.count s.io.stats - k.count st0))

/-- What is counted when the call stops for the reason `e`. -/
def LimEnd (limits : Limits) (st0 : Stats) (k : Limited) (e : Stop) (s : Slv P C) : Prop :=
  k.count st0 ≤ k.count s.io.stats ∧
  match k.limit limits with
  | none => e ≠ .terminated k.reason
  | some n => k.count s.io.stats - k.count st0 ≤ n ∧
    (e = .terminated k.reason → k.count s.io.stats - k.count st0 = n) ∧
    (k.count s.io.stats - k.count st0 = n →
      e = .terminated k.reason ∨ e = .error ∨ (k = .solutions ∧ e = .terminated .ppLimit))

variable {limits : Limits} {st0 : Stats}

theorem LimRun.end {k : Limited} {e : Stop} (h : LimRun limits st0 k s) (he : e ≠ .terminated k.reason) :
    LimEnd limits st0 k e s := by
  unfold LimRun at h; unfold LimEnd
  refine ⟨h.1, ?_⟩
  have h2 := h.2
  split at h2 <;> simp_all
  exact ⟨by omega, fun hh => by omega⟩

theorem LimRun.congr {k : Limited} {s' : Slv P C} (h : LimRun limits st0 k s)
    (h1 : k.count s'.io.stats = k.count s.io.stats) (h2 : k.limit s'.io.lims = k.limit s.io.lims) :
    LimRun limits st0 k s' := by
  unfold LimRun at *; rw [h1, h2]; exact h

theorem LimRun.pos {k : Limited} (h : LimRun limits st0 k s) : k.limit s.io.lims ≠ some 0 := by
  unfold LimRun at h
  have h2 := h.2
  split at h2
  · rw [h2]; simp
  · rw [h2.2]; simp; omega

/-- One step of counting. -/
theorem LimRun.charged {k : Limited} {s' : Slv P C} (h : LimRun limits st0 k s) (hc : Charged k s s')
    (hd : Down env.debug (k.limit s.io.lims) (k.limit s'.io.lims) false) : LimRun limits st0 k s' := by
  have h0 := h.pos
  unfold LimRun at *
  rw [hc.count]
  refine ⟨by omega, ?_⟩
  have h2 := h.2
  split at h2
  · rw [h2] at hd
    generalize k.limit s'.io.lims = l at hd ⊢
    cases hd; rfl
  · rename_i n _
    rw [h2.2] at hd h0
    generalize hl : k.limit s'.io.lims = l at hd ⊢
    generalize hm : n - (k.count s.io.stats - k.count st0) = m at hd
    cases hd with
    | wrap => exact absurd (congrArg some hm) h0
    | more m => exact ⟨by omega, by congr 1; omega⟩

theorem LimRun.last {k : Limited} {s' : Slv P C} (h : LimRun limits st0 k s) (hc : Charged k s s')
    (hd : Down env.debug (k.limit s.io.lims) (k.limit s'.io.lims) true) : LimEnd limits st0 k (.terminated k.reason) s' := by
  unfold LimRun at h; unfold LimEnd
  rw [hc.count]
  refine ⟨by omega, ?_⟩
  have h2 := h.2
  split at h2
  · rw [h2] at hd
    generalize k.limit s'.io.lims = l at hd
    cases hd
  · rename_i n _
    rw [h2.2] at hd
    generalize k.limit s'.io.lims = l at hd
    generalize hm : n - (k.count s.io.stats - k.count st0) = m at hd
    cases hd
    exact ⟨by omega, fun _ => by omega, fun _ => Or.inl rfl⟩

theorem LimRun.failed {k : Limited} {s' : Slv P C} (h : LimRun limits st0 k s) (hc : Charged k s s') :
    LimEnd limits st0 k .error s' := by
  unfold LimRun at h; unfold LimEnd
  rw [hc.count]
  refine ⟨by omega, ?_⟩
  have h2 := h.2
  split at h2
  · simp
  · exact ⟨by omega, fun h => by simp at h, fun _ => Or.inr (Or.inl rfl)⟩

theorem LimEnd.congr {k : Limited} {e : Stop} {s' : Slv P C} (h : LimEnd limits st0 k e s)
    (h1 : k.count s'.io.stats = k.count s.io.stats) : LimEnd limits st0 k e s' := by
  unfold LimEnd at *; rw [h1]; exact h

theorem Limited.reason_inj {k k' : Limited} (h : k.reason = k'.reason) : k = k' := by
  cases k <;> cases k' <;> first | rfl | cases h

/-- Counting `k` while all limits are running. -/
theorem wpio_charge_run {k : Limited} {ev : LogEvent} {Q : Unit → Slv P C → Prop} {E : Stop → Slv P C → Prop}
    (h : ∀ k, LimRun limits st0 k s)
    (h1 : ∀ s', s'.front = s.front → (∀ k, LimRun limits st0 k s') → Q () s')
    (h2 : ∀ e s', s'.front = s.front → (e = .error ∨ e = .terminated k.reason) → LimEnd limits st0 k e s' →
      (∀ k', k' ≠ k → LimRun limits st0 k' s') → E e s') : wp env (charge k ev) Q E s := by
  refine wpio_charge (fun s' hc _ hd => h1 s' hc.front fun k' => ?_) (fun s' hc _ _ _ => ?_) (fun s' hc _ hd => ?_)
    (fun s' _ _ _ hl => absurd hl (h k).pos)
  · by_cases hk : k' = k
    · subst hk; exact (h k').charged hc hd
    · exact (h k').congr (hc.others k' hk).1 (hc.others k' hk).2
  · exact h2 _ s' hc.front (Or.inl rfl) ((h k).failed hc) fun k' hk => (h k').congr (hc.others k' hk).1 (hc.others k' hk).2
  · exact h2 _ s' hc.front (Or.inr rfl) ((h k).last hc hd)
      fun k' hk => (h k').congr (hc.others k' hk).1 (hc.others k' hk).2

/-- Stopping after counting `k`. -/
theorem limEnd_all {k : Limited} {e : Stop} (he : e = .error ∨ e = .terminated k.reason) (h : LimEnd limits st0 k e s)
    (h2 : ∀ k', k' ≠ k → LimRun limits st0 k' s) : ∀ k', LimEnd limits st0 k' e s := by
  intro k'
  by_cases hk : k' = k
  · subst hk; exact h
  · refine (h2 k' hk).end ?_
    rcases he with rfl | rfl
    · simp
    · intro h'; injection h' with h'; exact hk (Limited.reason_inj h'.symm)

theorem limRun_all {e : Stop} (he : ∀ k : Limited, e ≠ .terminated k.reason) (h : ∀ k, LimRun limits st0 k s) :
    ∀ k, LimEnd limits st0 k e s := fun k => (h k).end (he k)

/-- Limits as an invariant. -/
theorem limLogic (env : Env) (limits : Limits) (st0 : Stats) :
    IoLogic (P := P) (C := C) env (fun _ _ _ s => ∀ k, LimRun limits st0 k s)
      (fun e s => ∀ k, LimEnd limits st0 k e s) where
  frame := fun h _ h' k => (h' k).congr (by rw [h]) (by rw [h])
  called := fun h => h
  halt := fun e he h => limRun_all (by rcases he with rfl | rfl | rfl <;> simp) h
  start := fun x s h => wpio_logEvent
    (fun s' _ _ _ a4 a5 _ k => (h k).congr (by rw [a4]) (by rw [a5]))
    (fun s' _ _ _ a4 a5 _ _ => limRun_all (by simp) fun k => (h k).congr (by rw [a4]) (by rw [a5]))
  finish := fun s h => wpio_logEvent
    (fun s' _ _ _ a4 a5 _ k => (h k).congr (by rw [a4]) (by rw [a5]))
    (fun s' _ _ _ a4 a5 _ _ => limRun_all (by simp) fun k => (h k).congr (by rw [a4]) (by rw [a5]))
  fence := fun x s h => wpio_logEvent
    (fun s' _ _ _ a4 a5 _ k => (h k).congr (by rw [a4]) (by rw [a5]))
    (fun s' _ _ _ a4 a5 _ _ => limRun_all (by simp) fun k => (h k).congr (by rw [a4]) (by rw [a5]))
  heur := fun i a b s h => wpio_logEvent
    (fun s' _ _ _ a4 a5 _ k => (h k).congr (by rw [a4]) (by rw [a5]))
    (fun s' _ _ _ a4 a5 _ _ => limRun_all (by simp) fun k => (h k).congr (by rw [a4]) (by rw [a5]))
  check := fun s h => wpio_check fun s' hs' => by
    subst hs'
    exact ⟨fun _ k => (h k).congr rfl rfl,
      fun _ => limRun_all (by intro k; cases k <;> simp [Limited.reason]) fun k => (h k).congr rfl rfl⟩
  cand := fun costs ph s h => by
    unfold logCandidate
    rw [wp_bind, wp_getS, wp_bind, wp_dbg_iff]
    split
    · exact limRun_all (by simp) h
    · exact wpio_charge_run (k := .candidates) (ev := .candidate costs ph) h (fun _ _ h => h)
        (fun e s' _ he h1 h2 => limEnd_all he h1 h2)
  call := fun a s h => wpio_solveAssumps
    (fun s' hs => limRun_all (by simp) fun k => (h k).congr (by rw [hs.stats]) (by rw [hs.lims]))
    (fun s' hs => limRun_all (by intro k; cases k <;> simp [Limited.reason])
      fun k => (h k).congr (by rw [hs.stats]) (by rw [hs.lims]))
    fun s' r hs => wpio_charge_run (k := .oracleCalls) (ev := .oracleCall r)
      (fun k => (h k).congr (by rw [hs.stats]) (by rw [hs.lims])) (fun _ _ h => h)
      (fun e s' _ he h1 h2 => limEnd_all he h1 h2)
  sol := fun nd _ s h => by
    refine wp_attempt ?_
    rw [logSolution_eq]
    refine wpio_charge_run h (fun _ _ h => h) ?_
    intro e s1 _ he h1 h2
    have key : wp env (do
        let ndTerm ← attempt (logNonDominated nd)
        collect nd
        ofExcept ndTerm
        stop e : M P C Unit) (fun _ _ => True) (fun e s => ∀ k, LimEnd limits st0 k e s) s1 := by
      rw [wp_bind]
      refine wp_attempt ?_
      rw [logNonDominated_eq]
      have hend : ∀ s2 : Slv P C, (∀ k, LimEnd limits st0 k e s2) → wp env (do
          collect nd
          ofExcept (.ok ())
          stop e : M P C Unit) (fun _ _ => True) (fun e s => ∀ k, LimEnd limits st0 k e s) s2 := fun s2 h k =>
        (h k).congr rfl
      have hend' : ∀ (s2 : Slv P C) (e' : Stop), (∀ k, LimEnd limits st0 k e' s2) → wp env (do
          collect nd
          ofExcept (.error e')
          stop e : M P C Unit) (fun _ _ => True) (fun e s => ∀ k, LimEnd limits st0 k e s) s2 := fun s2 e' h k =>
        (h k).congr rfl
      have hp : LimRun limits st0 .points s1 := h2 .points (by simp)
      have hsol : ∀ {e' : Stop} {s2 : Slv P C}, Charged .points s1 s2 → (e' = .error ∨ e' = .terminated .ppLimit) →
          LimEnd limits st0 .solutions e' s2 := by
        intro e' s2 hc he'
        have h1' := h1.congr (hc.others .solutions (by simp)).1
        unfold LimEnd at h1' ⊢
        refine ⟨h1'.1, ?_⟩
        have h3 := h1'.2
        split at h3
        · rcases he' with rfl | rfl <;> simp [Limited.reason]
        · refine ⟨h3.1, ?_, ?_⟩
          · rcases he' with rfl | rfl <;> simp [Limited.reason]
          · rcases he' with rfl | rfl <;> simp [Limited.reason]
      have hoth : ∀ {e' : Stop} {s2 : Slv P C} (k : Limited), k ≠ .points → k ≠ .solutions → Charged .points s1 s2 →
          e' ≠ .terminated k.reason → LimEnd limits st0 k e' s2 := fun k hk1 hk2 hc he' =>
        ((h2 k hk2).congr (hc.others k hk1).1 (hc.others k hk1).2).end he'
      refine wpio_charge ?_ ?_ ?_ ?_
      · intro s2 hc _ hd
        refine hend s2 fun k => ?_
        by_cases hk2 : k = .solutions
        · subst hk2; exact h1.congr (hc.others _ (by simp)).1
        · have : e ≠ .terminated k.reason := by
            rcases he with rfl | rfl
            · simp
            · intro h'; injection h' with h'; exact hk2 (Limited.reason_inj h'.symm)
          by_cases hk1 : k = .points
          · subst hk1; exact (hp.charged hc hd).end this
          · exact hoth k hk1 hk2 hc this
      · intro s2 hc _ _ _
        refine hend' s2 _ fun k => ?_
        by_cases hk1 : k = .points
        · subst hk1; exact hp.failed hc
        · by_cases hk2 : k = .solutions
          · subst hk2; exact hsol hc (Or.inl rfl)
          · exact hoth k hk1 hk2 hc (by simp)
      · intro s2 hc _ hd
        refine hend' s2 _ fun k => ?_
        by_cases hk1 : k = .points
        · subst hk1; exact hp.last hc hd
        · by_cases hk2 : k = .solutions
          · subst hk2; exact hsol hc (Or.inr rfl)
          · refine hoth k hk1 hk2 hc ?_
            intro h'; injection h' with h'; exact hk1 (Limited.reason_inj (k' := .points) h'.symm)
      · exact fun s2 _ _ _ hl => absurd hl hp.pos
    rcases he with rfl | rfl <;> exact key
  point := fun nd _ s h => by
    rw [wp_bind]
    refine wp_attempt ?_
    rw [logNonDominated_eq]
    refine wpio_charge_run h ?_ ?_
    · intro s1 _ h1
      rw [wp_bind]
      show wp env (do logRoutineEnd; ofExcept (Except.ok ()) : M P C Unit) _ _ _
      rw [wp_bind]
      refine wpio_logEvent (fun s' _ _ _ a4 a5 _ k => (h1 k).congr (by rw [a4]) (by rw [a5])) fun s' _ _ _ a4 a5 _ _ =>
        limRun_all (by simp) fun k => (h1 k).congr (by rw [a4]) (by rw [a5])
    · intro e s1 _ he h1 h2
      have key : wp env (do
          collect nd
          logRoutineEnd
          ofExcept (.error e) : M P C Unit) (fun _ s => ∀ k, LimRun limits st0 k s)
            (fun e s => ∀ k, LimEnd limits st0 k e s) s1 := by
        rw [wp_bind]
        show wp env (do logRoutineEnd; ofExcept (Except.error e) : M P C Unit) _ _ _
        rw [wp_bind]
        refine wpio_logEvent (fun s' _ _ _ a4 a5 _ k => ?_) fun s' _ _ _ a4 a5 _ _ k => ?_
        · exact (limEnd_all he h1 h2 k).congr (by rw [a4])
        · by_cases hk : k = .points
          · subst hk
            have h1' := h1.congr (s' := s') (by rw [a4])
            unfold LimEnd at h1' ⊢
            refine ⟨h1'.1, ?_⟩
            have h3 := h1'.2
            split at h3
            · simp
            · exact ⟨h3.1, by simp, fun _ => Or.inr (Or.inl rfl)⟩
          · exact ((h2 k hk).congr (s' := s') (by rw [a4]) (by rw [a5])).end (by simp)
      rcases he with rfl | rfl <;> exact key

end Scuttle
